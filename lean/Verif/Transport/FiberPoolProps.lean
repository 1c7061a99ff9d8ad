import Verif.Transport.FiberPool

/-!
# The TCP connection pool of the fiber transport: properties

C126: who gets which answer, and which connection. C127: what becomes of the count of connections.
-/

namespace Verif.Transport.FiberPool

/-! ## Answers and connections -/

/-- **C126.** A caller that gets an answer gets the one to their own request. -/
theorem C126_own {max shards : Nat} {s : S} (h : Reach false max shards s) {i j : Nat} (hr : (i, Res.ok j) ∈ s.results) : i = j := h.inv.ok i j hr

/-- **C126.** No call completes twice. -/
theorem C126_once {max shards : Nat} {s : S} (h : Reach false max shards s) : (s.results.map Prod.fst).Nodup := h.inv.nd

/-- **C126.** No two calls have the same connection; and what a call has is not in the pool. -/
theorem C126_exclusive {max shards : Nat} {s : S} (h : Reach false max shards s) {i c : Nat} {p : Pc} (hp : s.pcs[i]? = some p) (hc : p.conn = some c) :
    (∀ (j : Nat) p', s.pcs[j]? = some p' → p'.conn = some c → j = i) ∧ ∀ (n : Nat) l, s.shards[n]? = some l → c ∉ l := by
  obtain ⟨q, h1, h2⟩ := h.inv.pcs i p c hp hc
  refine ⟨fun j p' hj hd => ?_, fun n l hl hm => ?_⟩
  · obtain ⟨q', h3, h4⟩ := h.inv.pcs j p' c hj hd
    rw [h1] at h3; cases h3; rw [h2] at h4; cases h4; rfl
  · obtain ⟨q', h3, h4, _⟩ := (h.inv.stk n l hl).2.2 c hm
    rw [h1] at h3; cases h3; rw [h2] at h4; cases h4

/-- **C126.** A connection in the pool is there once, nobody waits for an answer on it, and none is to come. -/
theorem C126_clean {max shards : Nat} {s : S} (h : Reach false max shards s) {n : Nat} {l : List Nat} (hl : s.shards[n]? = some l) :
    l.Nodup ∧ ∀ c ∈ l, (∃ q, s.conns[c]? = some q ∧ q.ctx = none ∧ q.srv = [] ∧ q.rsp = []) ∧ ∀ (m : Nat) l', s.shards[m]? = some l' → c ∈ l' → m = n := by
  obtain ⟨h1, h2, h3⟩ := h.inv.stk n l hl
  refine ⟨h1, fun c hc => ?_⟩
  obtain ⟨q, h4, h5, h6⟩ := h3 c hc
  have := h.inv.conn c q h4
  unfold CI at this
  simp only [h5, List.append_eq_nil_iff] at this
  refine ⟨⟨q, h4, this.1, this.2.1⟩, fun m l' hm hc' => ?_⟩
  obtain ⟨q', h7, _, h8⟩ := (h.inv.stk m l' hm).2.2 c hc'
  rw [h4] at h7
  cases h7
  rw [← h8, h6]

theorem Step.per {echo : Bool} {s s' : S} (hs : Step echo s s') : s'.per = s.per ∧ s'.max = s.max ∧ s'.shards.length = s.shards.length := by
  cases hs with
  | back i c q r hp hc hr l hl =>
    by_cases hg : r.good = true ∧ l.length ≤ s.per ∧ s.num ≤ s.max
    · rw [if_pos hg]; simp [S.stack, S.conn, S.pc]
    · rw [if_neg hg]; simp [S.conn, S.pc, S.count]
  | _ => simp [S.stack, S.conn, S.pc, S.res, S.out, S.count, S.add]

theorem Reach.cfg {echo : Bool} {max shards : Nat} {s : S} (h : Reach echo max shards s) : s.per = max / shards ∧ s.max = max ∧ s.shards.length = shards := by
  induction h with
  | init => simp [S.init]
  | step h hs ih => have := hs.per; exact ⟨this.1.trans ih.1, this.2.1.trans ih.2.1, this.2.2.trans ih.2.2⟩

/-- **C126.** A shard keeps at most one connection more than its part of the limit. -/
theorem C126_shard {max shards : Nat} {s : S} (h : Reach false max shards s) {n : Nat} {l : List Nat} (hl : s.shards[n]? = some l) : l.length ≤ max / shards + 1 := by
  have := (h.inv.stk n l hl).2.1
  rw [h.cfg.1] at this
  exact this

/-- **C126.** A call that has saved its context has its result, or is waiting with its timer set. -/
theorem C126_waits {max shards : Nat} {s : S} (h : Reach false max shards s) {i c : Nat} (hp : s.pcs[i]? = some (.saved c) ∨ s.pcs[i]? = some (.sent c)) :
    i ∈ s.results.map Prod.fst ∨ ∃ s', Step false s s' ∧ (i, Res.timeout) ∈ s'.results := by
  obtain ⟨p, h1, h2⟩ : ∃ p, s.pcs[i]? = some p ∧ p.conn = some c := hp.elim (fun h => ⟨_, h, rfl⟩) (fun h => ⟨_, h, rfl⟩)
  obtain ⟨q, h3, h4⟩ := h.inv.pcs i p c h1 h2
  have := h.inv.conn c q h3
  unfold CI at this
  simp only [h4] at this
  have key : (q.ctx = some i) ∨ i ∈ s.results.map Prod.fst := by
    rcases this with ⟨h5, _⟩ | ⟨_, _, ⟨h5, _⟩ | ⟨_, r, h5, _⟩⟩ | ⟨_, _, ⟨h5, _⟩ | ⟨_, r, h5, _⟩⟩
    · rcases hp with hp | hp <;> rw [hp] at h5 <;> cases h5
    · exact .inl h5
    · exact .inr (List.mem_map.2 ⟨_, h5, rfl⟩)
    · exact .inl h5
    · exact .inr (List.mem_map.2 ⟨_, h5, rfl⟩)
  rcases key with key | key
  · exact .inr ⟨_, .timeout c i q h3 key, List.mem_cons_self⟩
  · exact .inl key

/-! ## The count -/

/-- Connections that a call has, or that are in the pool. -/
def live (l : List Conn) : Nat := l.countP (fun q => decide (q.place ≠ .gone))

def pooled (l : List Conn) : Nat := l.countP (fun q => decide (q.place = .pool))

theorem countP_set {α : Type} {p : α → Bool} {l : List α} {c : Nat} {q q' : α} (h : l[c]? = some q) : (l.set c q').countP p + (if p q then 1 else 0) = l.countP p + (if p q' then 1 else 0) := by
  induction l generalizing c with
  | nil => cases h
  | cons x l ih =>
    cases c with
    | zero =>
      simp only [List.getElem?_cons_zero, Option.some.injEq] at h
      subst h
      simp only [List.set_cons_zero, List.countP_cons]
      omega
    | succ c =>
      simp only [List.getElem?_cons_succ] at h
      have := ih h
      simp only [List.set_cons_succ, List.countP_cons]
      omega

theorem live_set {l : List Conn} {c : Nat} {q q' : Conn} (h : l[c]? = some q) : live (l.set c q') + (if q.place = .gone then 0 else 1) = live l + (if q'.place = .gone then 0 else 1) := by
  have := countP_set (p := fun q => decide (q.place ≠ .gone)) (q' := q') h
  unfold live
  by_cases h1 : q.place = .gone <;> by_cases h2 : q'.place = .gone <;> simp [h1, h2] at this ⊢ <;> omega

theorem pooled_set {l : List Conn} {c : Nat} {q q' : Conn} (h : l[c]? = some q) : pooled (l.set c q') + (if q.place = .pool then 1 else 0) = pooled l + (if q'.place = .pool then 1 else 0) := by
  have := countP_set (p := fun q => decide (q.place = .pool)) (q' := q') h
  unfold pooled
  by_cases h1 : q.place = .pool <;> by_cases h2 : q'.place = .pool <;> simp [h1, h2] at this ⊢ <;> omega

theorem pooled_le (l : List Conn) : pooled l ≤ live l := by
  unfold pooled live
  apply List.countP_mono_left
  intro q _ h
  simp only [decide_eq_true_eq] at h ⊢
  rw [h]
  simp

theorem live_same {l : List Conn} {c : Nat} {q q' : Conn} (h : l[c]? = some q) (hp : q'.place = q.place) : live (l.set c q') = live l := by
  have := live_set (q' := q') h
  rw [hp] at this
  omega

theorem pooled_same {l : List Conn} {c : Nat} {q q' : Conn} (h : l[c]? = some q) (hp : q'.place = q.place) : pooled (l.set c q') = pooled l := by
  have := pooled_set (q' := q') h
  rw [hp] at this
  omega

theorem wrap_def (n : Nat) : wrap n = n % 2 ^ 32 := rfl

theorem wrap_inc (n : Nat) : wrap (wrap n + 1) = wrap (n + 1) := by simp only [wrap_def]; omega

theorem wrap_less {n : Nat} (h : 0 < n) : wrap (less (wrap n)) = wrap (n - 1) := by
  simp only [wrap_def]
  unfold less
  split <;> omega

structure Cnt (s : S) : Prop where
  num : s.num = wrap (live s.conns + s.stale)

/-- How the places change. -/
inductive Move (s s' : S) : Prop
  | none (h1 : live s'.conns = live s.conns) (h2 : pooled s'.conns = pooled s.conns) (h3 : s'.num = s.num) (h4 : s'.stale = s.stale)
  | take (h1 : live s'.conns = live s.conns) (h2 : pooled s'.conns + 1 = pooled s.conns) (h3 : s'.num = s.num) (h4 : s'.stale = s.stale)
  | stale (h1 : live s'.conns + 1 = live s.conns) (h2 : pooled s'.conns + 1 = pooled s.conns) (h3 : s'.num = s.num) (h4 : s'.stale = s.stale + 1)
  | create (h1 : live s'.conns = live s.conns + 1) (h2 : pooled s'.conns = pooled s.conns) (h3 : s'.num = wrap (s.num + 1)) (h4 : s'.stale = s.stale)
  | keep (h0 : s.num ≤ s.max) (h1 : live s'.conns = live s.conns) (h2 : pooled s'.conns = pooled s.conns + 1) (h3 : s'.num = s.num) (h4 : s'.stale = s.stale)
  | close (h1 : live s'.conns + 1 = live s.conns) (h2 : pooled s'.conns = pooled s.conns) (h3 : s'.num = wrap (less s.num)) (h4 : s'.stale = s.stale)

theorem Step.move {s s' : S} (hs : Step false s s') (v : Inv s) : Move s s' := by
  have top : ∀ {n c : Nat} {l : List Nat} {q : Conn}, s.shards[n]? = some (c :: l) → s.conns[c]? = some q → q.place = .pool := by
    intro n c l q h1 h2
    obtain ⟨q', h3, h4, _⟩ := (v.stk n _ h1).2.2 c List.mem_cons_self
    rw [h2] at h3; cases h3; exact h4
  cases hs with
  | start n h => exact .none rfl rfl rfl rfl
  | take i n k c l q hp hl hc hh =>
    have h1 := live_set (q' := q.go (.used i)) hc
    have h2 := pooled_set (q' := q.go (.used i)) hc
    have h3 := top hl hc
    simp only [h3, Conn.go] at h1 h2
    simp at h1 h2
    exact .take h1 h2 rfl rfl
  | stale i n k c l q hp hl hc =>
    have h1 := live_set (q' := q.close.go .gone) hc
    have h2 := pooled_set (q' := q.close.go .gone) hc
    have h3 := top hl hc
    simp only [h3, Conn.go] at h1 h2
    simp at h1 h2
    exact .stale h1 h2 rfl rfl
  | create i n k hp hl => exact .create (by simp [S.count, S.pc, S.add, live]) (by simp [S.count, S.pc, S.add, pooled]) rfl rfl
  | fail i n k hp hl => exact .none rfl rfl rfl rfl
  | refuse i c q hp hc hh => exact .none rfl rfl rfl rfl
  | back i c q r hp hc hr l hl =>
    obtain ⟨p, hp1, hp2⟩ : ∃ p, s.pcs[i]? = some p ∧ p.conn = some c := hp.elim (fun h => ⟨_, h, rfl⟩) (fun h => ⟨_, h, rfl⟩)
    obtain ⟨q0, h0, hpl⟩ := v.pcs i p c hp1 hp2
    rw [hc] at h0
    cases h0
    by_cases hg : r.good = true ∧ l.length ≤ s.per ∧ s.num ≤ s.max
    · rw [if_pos hg]
      have h1 := live_set (q' := q.go .pool) hc
      have h2 := pooled_set (q' := q.go .pool) hc
      simp only [hpl, Conn.go] at h1 h2
      simp at h1 h2
      exact .keep hg.2.2 h1 h2 rfl rfl
    · rw [if_neg hg]
      have h1 := live_set (q' := q.close.go .gone) hc
      have h2 := pooled_set (q' := q.close.go .gone) hc
      simp only [hpl, Conn.go] at h1 h2
      simp at h1 h2
      exact .close h1 h2 rfl rfl
  | save i c q hp hc => exact .none (live_same hc rfl) (pooled_same hc rfl) rfl rfl
  | send i c q b hp hc => exact .none (live_same hc rfl) (pooled_same hc rfl) rfl rfl
  | oneway i c q b hp hc => exact .none (live_same hc rfl) (pooled_same hc rfl) rfl rfl
  | answer c j r q hc h => exact .none (live_same hc rfl) (pooled_same hc rfl) rfl rfl
  | receive c j i r q hc h hx => exact .none (live_same hc rfl) (pooled_same hc rfl) rfl rfl
  | drop c j r q hc h => exact .none (live_same hc rfl) (pooled_same hc rfl) rfl rfl
  | timeout c i q hc hx => exact .none (live_same hc rfl) (pooled_same hc rfl) rfl rfl
  | ended c q hc => exact .none (live_same hc rfl) (pooled_same hc rfl) rfl rfl
  | clear c i q hc hu hx => exact .none (live_same hc rfl) (pooled_same hc rfl) rfl rfl

theorem Move.cnt {s s' : S} (m : Move s s') (v : Cnt s) : Cnt s' := by
  constructor
  have hv := v.num
  cases m with
  | none h1 h2 h3 h4 => rw [h1, h3, h4, hv]
  | take h1 h2 h3 h4 => rw [h1, h3, h4, hv]
  | keep h0 h1 h2 h3 h4 => rw [h1, h3, h4, hv]
  | stale h1 h2 h3 h4 => rw [h3, h4, hv, ← h1]; congr 1; omega
  | create h1 h2 h3 h4 => rw [h3, h4, hv, h1, wrap_inc]; congr 1; omega
  | close h1 h2 h3 h4 => rw [h3, h4, hv, wrap_less (by omega)]; congr 1; omega

theorem Reach.cnt {max shards : Nat} {s : S} (h : Reach false max shards s) : Cnt s := by
  induction h with
  | init => exact ⟨by rw [wrap_def]; simp [S.init, live]⟩
  | step h hs ih => exact (hs.move h.inv).cnt ih

/-- **C127.** The count of connections is the number of those that there are and of all that were ever found unusable in the pool: it is not reduced for these. -/
theorem C127_count_partial {max shards : Nat} {s : S} (h : Reach false max shards s) : s.num = (live s.conns + s.stale) % 2 ^ 32 := by
  rw [h.cnt.num, wrap_def]

/-- Runs with fewer than 2^32 connections at a time, with the limit. -/
inductive Few (max shards : Nat) : S → Prop
  | init (h : max < 2 ^ 32) : Few max shards (.init max shards)
  | step {s s' : S} (h : Few max shards s) (hs : Step false s s') (hl : live s'.conns + max < 2 ^ 32) : Few max shards s'

theorem Few.reach {max shards : Nat} {s : S} (h : Few max shards s) : Reach false max shards s := by
  induction h with
  | init => exact .init
  | step _ hs _ ih => exact .step ih hs

theorem Few.live {max shards : Nat} {s : S} (h : Few max shards s) : live s.conns + max < 2 ^ 32 := by
  cases h with
  | init h => simpa [S.init, FiberPool.live] using h
  | step _ _ h => exact h

/-- **C127.** Every connection that was found unusable in the pool takes a place in it for ever. -/
theorem C127_shrinks_partial {max shards : Nat} {s : S} (h : Few max shards s) : pooled s.conns + s.stale ≤ max := by
  induction h with
  | init => simp [S.init, pooled]
  | @step s s' h hs hl ih =>
    cases hs.move h.reach.inv with
    | none h1 h2 h3 h4 => rw [h2, h4]; exact ih
    | take h1 h2 h3 h4 => rw [h4]; omega
    | stale h1 h2 h3 h4 => rw [h4]; omega
    | create h1 h2 h3 h4 => rw [h2, h4]; exact ih
    | close h1 h2 h3 h4 => rw [h2, h4]; exact ih
    | keep h0 h1 h2 h3 h4 =>
      have hn := h.reach.cnt.num
      have hv := h.live
      rw [wrap_def, Nat.mod_eq_of_lt (by omega)] at hn
      have := pooled_le s'.conns
      rw [h.reach.cfg.2.1] at h0
      rw [h4]
      omega

/-- **C126.** The pool keeps at most as many connections as its limit says. -/
theorem C126_total {max shards : Nat} {s : S} (h : Few max shards s) : pooled s.conns ≤ max := by
  have := C127_shrinks_partial h
  omega

/-- Going on from a state. -/
inductive Later (max : Nat) (s : S) : S → Prop
  | refl : Later max s s
  | step {s1 s2 : S} (h : Later max s s1) (hs : Step false s1 s2) (hl : live s2.conns + max < 2 ^ 32) : Later max s s2

theorem Later.few {max shards : Nat} {s s' : S} (h : Later max s s') (h0 : Few max shards s) : Few max shards s' ∧ s.stale ≤ s'.stale := by
  induction h with
  | refl => exact ⟨h0, Nat.le_refl _⟩
  | step h hs hl ih =>
    refine ⟨.step ih.1 hs hl, ?_⟩
    cases hs.move ih.1.reach.inv <;> omega

theorem Few.to {max shards : Nat} {s s' t : S} (h : Few max shards s) (hs : Step false s s') (hl : FiberPool.live s'.conns + max < 2 ^ 32) (e : s' = t) : Few max shards t := e ▸ .step h hs hl

/-- the states of a cycle -/
def st (s : S) (l : List Nat) (num : Nat) (q : Conn) (ps : List Pc) (rs : List (Nat × Res)) (stale : Nat) : S := ⟨s.max, s.per, s.shards.set 0 l, num, s.conns ++ [q], s.pcs ++ ps, rs ++ s.results, stale⟩

theorem live_st {s : S} {q : Conn} (hz : FiberPool.live s.conns = 0) : FiberPool.live (s.conns ++ [q]) ≤ 1 := by
  unfold FiberPool.live at hz ⊢
  rw [List.countP_append, hz, List.countP_cons]
  simp only [List.countP_nil]
  split <;> omega

/-- A connection is used, closed by the peer in the pool, and found there. -/
theorem cycle {max shards : Nat} (hm : max + 1 < 2 ^ 32) {s : S} (h : Few max shards s) (hz : FiberPool.live s.conns = 0) (hst : s.stale < max) (hs0 : s.shards[0]? = some []) :
    ∃ s', Few max shards s' ∧ FiberPool.live s'.conns = 0 ∧ s'.stale = s.stale + 1 ∧ s'.shards[0]? = some [] := by
  have hlen : 0 < s.shards.length := (List.getElem?_eq_some_iff.1 hs0).1
  have hnum := h.reach.cnt.num
  rw [hz, wrap_def, Nat.mod_eq_of_lt (by omega)] at hnum
  obtain ⟨_, hcap, _⟩ := h.reach.cfg
  have hw : wrap (s.num + 1) = s.stale + 1 := by rw [wrap_def]; omega
  have lv : ∀ l n q ps rs k, FiberPool.live (st s l n q ps rs k).conns + max < 2 ^ 32 := by
    intro l n q ps rs k
    have := live_st (q := q) hz
    simp only [st]
    omega
  have sh : s.shards.set 0 [] = s.shards := set_same hs0
  let i := s.pcs.length
  let c := s.conns.length
  have h := h.to (.start 0 hlen) (by dsimp only; omega) rfl
  have h := h.to (t := st s [] (s.stale + 1) ⟨0, true, false, none, [], [], .used i⟩ [.have_ c] [] s.stale) (.create i 0 3 (by simp [i]) (.inr hs0)) (by
      have e := live_st (q := ⟨0, true, false, none, [], [], .used i⟩) hz
      simp only [S.add, S.pc, S.count]; omega) (by simp [S.add, S.pc, S.count, st, sh, hw, i, c])
  have go : ∀ {l n q ps rs k} {s' : S}, Few max shards (st s l n q ps rs k) → Step false (st s l n q ps rs k) s' → ∀ l' n' q' ps' rs' k', s' = st s l' n' q' ps' rs' k' → Few max shards (st s l' n' q' ps' rs' k') := by
    intro l n q ps rs k s' h1 h2 l' n' q' ps' rs' k' e
    subst e
    exact .step h1 h2 (lv _ _ _ _ _ _)
  have cn : ∀ l n q ps rs k, (st s l n q ps rs k).conns[c]? = some q := by intro l n q ps rs k; simp [st, c]
  have h := go h (.save i c _ (by simp [st, i]) (cn _ _ _ _ _ _)) [] (s.stale + 1) ⟨0, true, false, some i, [], [], .used i⟩ [.saved c] [] s.stale (by simp [st, S.pc, S.conn, Conn.setCtx, i, c])
  have h := go h (.send i c _ true (by simp [st, i]) (cn _ _ _ _ _ _)) [] (s.stale + 1) ⟨0, true, false, some i, [i], [], .used i⟩ [.sent c] [] s.stale (by simp [st, S.pc, S.conn, Conn.net, i, c])
  have h := go h (.answer c i [] _ (cn _ _ _ _ _ _) rfl) [] (s.stale + 1) ⟨0, true, false, some i, [], [i], .used i⟩ [.sent c] [] s.stale (by simp [st, S.conn, Conn.net, c])
  have h := go h (.receive c i i [] _ (cn _ _ _ _ _ _) rfl rfl) [] (s.stale + 1) ⟨0, true, false, none, [], [], .used i⟩ [.sent c] [(i, .ok i)] s.stale (by simp [st, S.conn, S.res, Conn.net, Conn.setCtx, c])
  have h := go h (.back i c _ (.ok i) (.inl (by simp [st, i])) (cn _ _ _ _ _ _) (by simp [st]) [] (by simp [st, hlen])) [c] (s.stale + 1) ⟨0, true, false, none, [], [], .pool⟩ [.back] [(i, .ok i)] s.stale (by
    rw [if_pos ⟨rfl, Nat.zero_le _, by simp only [st]; omega⟩]
    simp [st, S.conn, S.pc, S.stack, Conn.go, c, i])
  have h := go h (.ended c _ (cn _ _ _ _ _ _)) [c] (s.stale + 1) ⟨0, false, true, none, [], [], .pool⟩ [.back] [(i, .ok i)] s.stale (by simp [st, S.conn, Conn.close, c])
  have h := go h (.start 0 (by simpa [st] using hlen)) [c] (s.stale + 1) ⟨0, false, true, none, [], [], .pool⟩ [.back, .get 0 3] [(i, .ok i)] s.stale (by simp [st])
  have h := go h (.stale (i + 1) 0 2 c [] _ (by simp [st, i]) (by simp [st, hlen]) (cn _ _ _ _ _ _)) [] (s.stale + 1) ⟨0, false, true, none, [], [], .gone⟩ [.back, .get 0 2] [(i, .ok i)] (s.stale + 1) (by simp [st, S.conn, S.pc, S.stack, S.out, Conn.close, Conn.go, c, i])
  refine ⟨_, h, ?_, rfl, by simp [st, hlen]⟩
  unfold FiberPool.live at hz ⊢
  simp only [st]
  rw [List.countP_append, hz]
  simp

theorem all_stale {max shards n : Nat} (hm : max + 1 < 2 ^ 32) (hs : 0 < shards) (hn : n ≤ max) : ∃ s, Few max shards s ∧ FiberPool.live s.conns = 0 ∧ s.stale = n ∧ s.shards[0]? = some [] := by
  induction n with
  | zero => exact ⟨_, .init (by omega), by simp [S.init, FiberPool.live], rfl, by simp [S.init, hs]⟩
  | succ n ih =>
    obtain ⟨s, h1, h2, h3, h4⟩ := ih (by omega)
    obtain ⟨s', h5, h6, h7, h8⟩ := cycle hm h1 h2 (by omega) h4
    exact ⟨s', h5, h6, by omega, h8⟩

/-- **C127.** Whatever the limit: after as many connections were found closed or idle in the pool, it never keeps a connection again, however few there are: every call makes its own. -/
theorem C127_dead_partial {max shards : Nat} (hm : max + 1 < 2 ^ 32) (hs : 0 < shards) :
    ∃ s, Few max shards s ∧ FiberPool.live s.conns = 0 ∧ ∀ s', Later max s s' → pooled s'.conns = 0 := by
  obtain ⟨s, h1, h2, h3, _⟩ := all_stale hm hs (Nat.le_refl max)
  refine ⟨s, h1, h2, fun s' hl => ?_⟩
  obtain ⟨h4, h5⟩ := hl.few h1
  have := C127_shrinks_partial h4
  omega

/-- Not vacuous: a connection is kept, and used again by another call. -/
example {max shards : Nat} (hm : max + 1 < 2 ^ 32) (h0 : 0 < max) (hs : 0 < shards) : ∃ s, Reach false max shards s ∧ (0, Res.ok 0) ∈ s.results ∧ s.pcs[1]? = some (.have_ 0) := by
  have e0 : (S.init max shards).shards[0]? = some [] := by simp [S.init, hs]
  have h : Reach false max shards _ := .step .init (.start 0 (by simp [S.init, hs]))
  have h := h.step (.create 0 0 3 rfl (.inr e0))
  have h := h.step (.save 0 0 ⟨0, true, false, none, [], [], .used 0⟩ rfl rfl)
  have h := h.step (.send 0 0 ⟨0, true, false, some 0, [], [], .used 0⟩ true rfl rfl)
  have h := h.step (.answer 0 0 [] ⟨0, true, false, some 0, [0], [], .used 0⟩ rfl rfl)
  have h := h.step (.receive 0 0 0 [] ⟨0, true, false, some 0, [], [0], .used 0⟩ rfl rfl rfl)
  have h := h.step (.back 0 0 ⟨0, true, false, none, [], [], .used 0⟩ (.ok 0) (.inl rfl) rfl List.mem_cons_self [] e0)
  rw [if_pos ⟨rfl, Nat.zero_le _, by simp [S.init, S.res, S.conn, S.pc, S.count, S.add, wrap]; omega⟩] at h
  have h := h.step (.start 0 (by simp [S.init, S.res, S.conn, S.pc, S.count, S.add, S.stack, hs]))
  have h := h.step (.take 1 0 2 0 [] ⟨0, true, false, none, [], [], .pool⟩ rfl (by simp [S.init, S.res, S.conn, S.pc, S.count, S.add, S.stack, hs]) rfl rfl)
  exact ⟨_, h, by simp [S.init, S.res, S.conn, S.pc, S.count, S.add, S.stack], rfl⟩

/-- **C127.** If the server answers one-way requests, the answer goes to the next caller. -/
theorem C127_oneway_partial {max shards : Nat} (hm : max + 1 < 2 ^ 32) (h0 : 0 < max) (hs : 0 < shards) : ∃ s, Reach true max shards s ∧ (1, Res.ok 0) ∈ s.results := by
  have e0 : (S.init max shards).shards[0]? = some [] := by simp [S.init, hs]
  have h : Reach true max shards _ := .step .init (.start 0 (by simp [S.init, hs]))
  have h := h.step (.create 0 0 3 rfl (.inr e0))
  have h := h.step (.oneway 0 0 ⟨0, true, false, none, [], [], .used 0⟩ true rfl rfl)
  have h := h.step (.back 0 0 ⟨0, true, false, none, [0], [], .used 0⟩ .none (.inl rfl) rfl List.mem_cons_self [] e0)
  rw [if_pos ⟨rfl, Nat.zero_le _, by simp [S.init, S.res, S.conn, S.pc, S.count, S.add, wrap]; omega⟩] at h
  have h := h.step (.start 0 (by simp [S.init, S.res, S.conn, S.pc, S.count, S.add, S.stack, hs]))
  have h := h.step (.take 1 0 2 0 [] ⟨0, true, false, none, [0], [], .pool⟩ rfl (by simp [S.init, S.res, S.conn, S.pc, S.count, S.add, S.stack, hs]) rfl rfl)
  have h := h.step (.save 1 0 ⟨0, true, false, none, [0], [], .used 1⟩ rfl rfl)
  have h := h.step (.answer 0 0 [] ⟨0, true, false, some 1, [0], [], .used 1⟩ rfl rfl)
  have h := h.step (.receive 0 0 1 [] ⟨0, true, false, some 1, [], [0], .used 1⟩ rfl rfl rfl)
  exact ⟨_, h, List.mem_cons_self⟩

end Verif.Transport.FiberPool
