import Verif.Sync.Hazptr
/-! # Hazard pointers: proofs -/

namespace Verif.Sync.Hazptr

/-- The domain in which a thread is, and the objects that it has taken from the list or has not put into it yet. -/
def K.items : K → List Nat
  | .sweep _ cur => cur
  | _ => []

def W.items : W → List Nat
  | .push _ p _ k => p :: k.items
  | .scan _ cur => cur
  | .scanA _ cur _ _ => cur
  | .scanP _ cur _ _ _ => cur
  | .sweep _ cur _ => cur
  | _ => []

def W.d : W → Nat
  | .push d _ _ _ => d
  | .count d => d
  | .take d => d
  | .scan d _ => d
  | .scanA d _ _ _ => d
  | .scanP d _ _ _ _ => d
  | .sweep d _ _ => d
  | .idle => 0

/-- Objects: one in a source is live; a retired one is at one place. -/
structure A (sd : Nat → Nat) (obj : Nat → Obj) (dom : Nat → Nat) (src : Nat → Option Nat) (ret : Nat → List Nat) (wk : Nat → W) : Prop where
  live : ∀ c p, src c = some p → obj p = .live ∧ dom p = sd c
  retObj : ∀ d p, p ∈ ret d → obj p = .retired ∧ dom p = d
  retNd : ∀ d, (ret d).Nodup
  itObj : ∀ i p, p ∈ (wk i).items → obj p = .retired ∧ dom p = (wk i).d
  itNd : ∀ i, (wk i).items.Nodup
  itDisj : ∀ i j p, i ≠ j → p ∈ (wk i).items → p ∉ (wk j).items
  itRet : ∀ i d p, p ∈ (wk i).items → p ∉ ret d
  found : ∀ p, obj p = .retired → p ∈ ret (dom p) ∨ ∃ i, p ∈ (wk i).items

def S.A (sd : Nat → Nat) (s : S) : Prop := Hazptr.A sd s.obj s.dom s.src s.ret s.wk

/-- A thread that goes on with the same objects. -/
theorem A.same {sd obj dom src ret wk} (h : A sd obj dom src ret wk) (i : Nat) (x : W) (hi : x.items = (wk i).items) (hd : x.items ≠ [] → x.d = (wk i).d) : A sd obj dom src ret (upd wk i x) := by
  have e : ∀ j, (upd wk i x j).items = (wk j).items := by
    intro j
    by_cases hj : j = i
    · subst hj; rw [upd_same, hi]
    · rw [upd_ne _ _ hj]
  refine ⟨h.live, h.retObj, h.retNd, ?_, ?_, ?_, ?_, ?_⟩
  · intro j p hp
    have hp' := hp
    rw [e] at hp
    obtain ⟨h1, h2⟩ := h.itObj j p hp
    refine ⟨h1, ?_⟩
    by_cases hj : j = i
    · subst hj
      rw [upd_same] at hp' ⊢
      rw [hd (List.ne_nil_of_mem hp')]
      exact h2
    · rw [upd_ne _ _ hj]; exact h2
  · intro j; rw [e]; exact h.itNd j
  · intro j k p; rw [e, e]; exact h.itDisj j k p
  · intro j d p; rw [e]; exact h.itRet j d p
  · intro p hp
    rcases h.found p hp with h1 | ⟨j, h1⟩
    · exact .inl h1
    · exact .inr ⟨j, by rw [e]; exact h1⟩

theorem A.init (sd : Nat → Nat) : S.init.A sd :=
  ⟨fun _ _ h => (by cases h), fun _ _ h => (by cases h), fun _ => List.nodup_nil, fun _ _ h => (by cases h), fun _ => List.nodup_nil, fun _ _ _ _ h => (by cases h), fun _ _ _ h => (by cases h), fun _ h => (by cases h)⟩

theorem A.retire {sd obj dom src ret wk} (h : A sd obj dom src ret wk) (i p : Nat) (o : Option Nat) (k : K) (hi : wk i = .idle) (hk : k.items = []) (hp : obj p = .live) (hs : ∀ c, src c ≠ some p) :
    A sd (upd obj p .retired) dom src ret (upd wk i (.push (dom p) p o k)) := by
  have hn : ∀ d, p ∉ ret d := fun d hm => by have := (h.retObj d p hm).1; rw [hp] at this; cases this
  have hn' : ∀ j, p ∉ (wk j).items := fun j hm => by have := (h.itObj j p hm).1; rw [hp] at this; cases this
  have e : ∀ j, (upd wk i (.push (dom p) p o k) j).items = if j = i then [p] else (wk j).items := by
    intro j
    by_cases hj : j = i
    · subst hj; simp [W.items, hk]
    · rw [upd_ne _ _ hj, if_neg hj]
  refine ⟨?_, ?_, h.retNd, ?_, ?_, ?_, ?_, ?_⟩
  · intro c q hq
    have : q ≠ p := fun e => hs c (by rw [← e]; exact hq)
    rw [upd_ne _ _ this]
    exact h.live c q hq
  · intro d q hq
    have : q ≠ p := fun e => hn d (by rw [← e]; exact hq)
    rw [upd_ne _ _ this]
    exact h.retObj d q hq
  · intro j q hq
    rw [e] at hq
    by_cases hj : j = i
    · subst hj
      rw [if_pos rfl, List.mem_singleton] at hq
      subst hq
      simp [W.d]
    · rw [if_neg hj] at hq
      have : q ≠ p := fun e => hn' j (by rw [← e]; exact hq)
      rw [upd_ne _ _ this, upd_ne _ _ hj]
      exact h.itObj j q hq
  · intro j
    rw [e]
    split
    · simp
    · exact h.itNd j
  · intro j l q hjl hq
    rw [e] at hq ⊢
    split at hq
    · rename_i hj
      rw [List.mem_singleton] at hq
      subst hq
      rw [if_neg (fun hl => hjl (hj.trans hl.symm))]
      exact hn' l
    · split
      · intro hm
        rw [List.mem_singleton] at hm
        subst hm
        exact hn' j hq
      · exact h.itDisj j l q hjl hq
  · intro j d q hq
    rw [e] at hq
    split at hq
    · rw [List.mem_singleton] at hq
      subst hq
      exact hn d
    · exact h.itRet j d q hq
  · intro q hq
    by_cases hqp : q = p
    · subst hqp
      exact .inr ⟨i, by rw [e, if_pos rfl]; exact List.mem_singleton.2 rfl⟩
    · rw [upd_ne _ _ hqp] at hq
      rcases h.found q hq with h1 | ⟨j, h1⟩
      · exact .inl h1
      · refine .inr ⟨j, ?_⟩
        rw [e, if_neg]
        · exact h1
        · intro hj
          subst hj
          rw [hi] at h1
          cases h1

theorem K.next_items (d : Nat) (k : K) : (k.next d).items = k.items := by cases k <;> rfl

theorem K.next_d (d : Nat) (k : K) : (k.next d).d = d := by cases k <;> rfl

theorem A.pushed {sd obj dom src ret wk} (h : A sd obj dom src ret wk) (i d p : Nat) (o : Option Nat) (k : K) (hi : wk i = .push d p o k) :
    A sd obj dom src (upd ret d (p :: ret d)) (upd wk i (k.next d)) := by
  have hp : p ∈ (wk i).items := by rw [hi]; exact List.mem_cons_self
  have hki : ∀ q, q ∈ k.items → q ∈ (wk i).items := fun q hq => by rw [hi]; exact List.mem_cons_of_mem _ hq
  have hnd := h.itNd i
  have hd : (wk i).d = d := by rw [hi]; rfl
  have hpk : p ∉ k.items ∧ k.items.Nodup := by rw [hi] at hnd; exact List.nodup_cons.1 hnd
  have e : ∀ j, (upd wk i (k.next d) j).items = if j = i then k.items else (wk j).items := by
    intro j
    by_cases hj : j = i
    · subst hj; simp [K.next_items]
    · rw [upd_ne _ _ hj, if_neg hj]
  have hr : ∀ c q, q ∈ upd ret d (p :: ret d) c ↔ (c = d ∧ q = p) ∨ q ∈ ret c := by
    intro c q
    by_cases hc : c = d
    · subst hc; simp
    · rw [upd_ne _ _ hc]; simp [hc]
  refine ⟨h.live, ?_, ?_, ?_, ?_, ?_, ?_, ?_⟩
  · intro c q hq
    rcases (hr c q).1 hq with ⟨rfl, rfl⟩ | hq
    · rw [← hd]; exact h.itObj i q hp
    · exact h.retObj c q hq
  · intro c
    by_cases hc : c = d
    · subst hc
      rw [upd_same, List.nodup_cons]
      exact ⟨h.itRet i c p hp, h.retNd c⟩
    · rw [upd_ne _ _ hc]; exact h.retNd c
  · intro j q hq
    rw [e] at hq
    by_cases hj : j = i
    · subst hj
      rw [if_pos rfl] at hq
      rw [upd_same, K.next_d, ← hd]
      exact h.itObj j q (hki q hq)
    · rw [if_neg hj] at hq
      rw [upd_ne _ _ hj]
      exact h.itObj j q hq
  · intro j
    rw [e]
    split
    · exact hpk.2
    · exact h.itNd j
  · intro j l q hjl hq hq'
    rw [e] at hq hq'
    split at hq <;> split at hq'
    · rename_i h1 h2; exact hjl (h1.trans h2.symm)
    · rename_i h1 h2; subst h1; exact h.itDisj _ _ q hjl (hki q hq) hq'
    · rename_i h1 h2; subst h2; exact h.itDisj _ _ q hjl hq (hki q hq')
    · exact h.itDisj _ _ q hjl hq hq'
  · intro j c q hq hm
    rw [e] at hq
    rcases (hr c q).1 hm with ⟨rfl, rfl⟩ | hm
    · split at hq
      · exact hpk.1 hq
      · rename_i hj; exact h.itDisj j i q hj hq hp
    · split at hq
      · rename_i hj; exact h.itRet i c q (hki q hq) hm
      · exact h.itRet j c q hq hm
  · intro q hq
    rcases h.found q hq with h1 | ⟨j, h1⟩
    · exact .inl ((hr _ _).2 (.inr h1))
    · by_cases hj : j = i
      · subst hj
        have h1' := h1
        rw [hi] at h1'
        rcases List.mem_cons.1 h1' with rfl | h2
        · exact .inl ((hr _ _).2 (.inl ⟨by rw [← hd]; exact (h.itObj j q h1).2, rfl⟩))
        · exact .inr ⟨j, by rw [e, if_pos rfl]; exact h2⟩
      · exact .inr ⟨j, by rw [e, if_neg hj]; exact h1⟩

theorem A.take {sd obj dom src ret wk} (h : A sd obj dom src ret wk) (i d : Nat) (hi : wk i = .take d) :
    A sd obj dom src (upd ret d []) (upd wk i (if ret d = [] then .idle else .scan d (ret d))) := by
  have e : ∀ j, (upd wk i (if ret d = [] then .idle else .scan d (ret d)) j).items = if j = i then ret d else (wk j).items := by
    intro j
    by_cases hj : j = i
    · subst hj
      rw [upd_same, if_pos rfl]
      split
      · rename_i hr; rw [hr]; rfl
      · rfl
    · rw [upd_ne _ _ hj, if_neg hj]
  have hr : ∀ c q, q ∈ upd ret d [] c → c ≠ d ∧ q ∈ ret c := by
    intro c q hq
    by_cases hc : c = d
    · subst hc; rw [upd_same] at hq; cases hq
    · rw [upd_ne _ _ hc] at hq; exact ⟨hc, hq⟩
  refine ⟨h.live, fun c q hq => h.retObj c q (hr c q hq).2, ?_, ?_, ?_, ?_, ?_, ?_⟩
  · intro c
    by_cases hc : c = d
    · subst hc; rw [upd_same]; exact List.nodup_nil
    · rw [upd_ne _ _ hc]; exact h.retNd c
  · intro j q hq
    have hq' := hq
    rw [e] at hq
    by_cases hj : j = i
    · subst hj
      rw [if_pos rfl] at hq
      rw [upd_same, if_neg (List.ne_nil_of_mem hq)]
      exact h.retObj d q hq
    · rw [if_neg hj] at hq
      rw [upd_ne _ _ hj]
      exact h.itObj j q hq
  · intro j
    rw [e]
    split
    · exact h.retNd d
    · exact h.itNd j
  · intro j l q hjl hq hq'
    rw [e] at hq hq'
    split at hq <;> split at hq'
    · rename_i h1 h2; exact hjl (h1.trans h2.symm)
    · exact h.itRet _ _ q hq' hq
    · exact h.itRet _ _ q hq hq'
    · exact h.itDisj _ _ q hjl hq hq'
  · intro j c q hq hm
    rw [e] at hq
    obtain ⟨hc, hm⟩ := hr c q hm
    split at hq
    · exact hc ((h.retObj c q hm).2.symm.trans (h.retObj d q hq).2)
    · exact h.itRet _ _ q hq hm
  · intro q hq
    rcases h.found q hq with h1 | ⟨j, h1⟩
    · by_cases hc : dom q = d
      · exact .inr ⟨i, by rw [e, if_pos rfl, ← hc]; exact h1⟩
      · exact .inl (by rw [upd_ne _ _ hc]; exact h1)
    · refine .inr ⟨j, ?_⟩
      rw [e, if_neg]
      · exact h1
      · intro hj; subst hj; rw [hi] at h1; cases h1

theorem A.destroy {sd obj dom src ret wk} (h : A sd obj dom src ret wk) (i d p : Nat) (cur kept : List Nat) (hi : wk i = .sweep d (p :: cur) kept) :
    A sd (upd obj p .free) dom src ret (upd wk i (.sweep d cur kept)) := by
  have hp : p ∈ (wk i).items := by rw [hi]; exact List.mem_cons_self
  have hki : ∀ q, q ∈ cur → q ∈ (wk i).items := fun q hq => by rw [hi]; exact List.mem_cons_of_mem _ hq
  have hpk : p ∉ cur ∧ cur.Nodup := by have hnd := h.itNd i; rw [hi] at hnd; exact List.nodup_cons.1 hnd
  have hd : (wk i).d = d := by rw [hi]; rfl
  have e : ∀ j, (upd wk i (.sweep d cur kept) j).items = if j = i then cur else (wk j).items := by
    intro j
    by_cases hj : j = i
    · subst hj; simp [W.items]
    · rw [upd_ne _ _ hj, if_neg hj]
  have hpo := (h.itObj i p hp).1
  have sub : ∀ j q, q ∈ (upd wk i (.sweep d cur kept) j).items → q ∈ (wk j).items ∧ q ≠ p := by
    intro j q hq
    rw [e] at hq
    split at hq
    · rename_i hj; subst hj; exact ⟨hki q hq, fun e => hpk.1 (e ▸ hq)⟩
    · rename_i hj; exact ⟨hq, fun e => h.itDisj j i q hj hq (e ▸ hp)⟩
  refine ⟨?_, ?_, h.retNd, ?_, ?_, fun j l q hjl hq hq' => h.itDisj j l q hjl (sub j q hq).1 (sub l q hq').1, fun j c q hq => h.itRet j c q (sub j q hq).1, ?_⟩
  · intro c q hq
    have : q ≠ p := by intro e; subst e; have := (h.live c q hq).1; rw [hpo] at this; cases this
    rw [upd_ne _ _ this]
    exact h.live c q hq
  · intro c q hq
    have : q ≠ p := fun e => h.itRet i c p hp (e ▸ hq)
    rw [upd_ne _ _ this]
    exact h.retObj c q hq
  · intro j q hq
    obtain ⟨h1, h2⟩ := sub j q hq
    rw [upd_ne _ _ h2]
    obtain ⟨h3, h4⟩ := h.itObj j q h1
    refine ⟨h3, ?_⟩
    by_cases hj : j = i
    · subst hj; rw [upd_same]; rw [h4, hd]; rfl
    · rw [upd_ne _ _ hj]; exact h4
  · intro j
    rw [e]
    split
    · exact hpk.2
    · exact h.itNd j
  · intro q hq
    have hqp : q ≠ p := by intro e; subst e; rw [upd_same] at hq; cases hq
    rw [upd_ne _ _ hqp] at hq
    rcases h.found q hq with h1 | ⟨j, h1⟩
    · exact .inl h1
    · refine .inr ⟨j, ?_⟩
      rw [e]
      split
      · rename_i hj
        subst hj
        rw [hi] at h1
        rcases List.mem_cons.1 h1 with h2 | h2
        · exact absurd h2 hqp
        · exact h2
      · exact h1

theorem A.alloc {sd obj dom src ret wk} (h : A sd obj dom src ret wk) (p d : Nat) (hp : obj p = .free) : A sd (upd obj p .live) (upd dom p d) src ret wk := by
  have n1 : ∀ c q, src c = some q → q ≠ p := by intro c q hq e; subst e; have := (h.live c q hq).1; rw [hp] at this; cases this
  have n2 : ∀ c q, q ∈ ret c → q ≠ p := by intro c q hq e; subst e; have := (h.retObj c q hq).1; rw [hp] at this; cases this
  have n3 : ∀ j q, q ∈ (wk j).items → q ≠ p := by intro c q hq e; subst e; have := (h.itObj c q hq).1; rw [hp] at this; cases this
  refine ⟨?_, ?_, h.retNd, ?_, h.itNd, h.itDisj, h.itRet, ?_⟩
  · intro c q hq
    rw [upd_ne _ _ (n1 c q hq), upd_ne _ _ (n1 c q hq)]
    exact h.live c q hq
  · intro c q hq
    rw [upd_ne _ _ (n2 c q hq), upd_ne _ _ (n2 c q hq)]
    exact h.retObj c q hq
  · intro c q hq
    rw [upd_ne _ _ (n3 c q hq), upd_ne _ _ (n3 c q hq)]
    exact h.itObj c q hq
  · intro q hq
    have hqp : q ≠ p := by intro e; subst e; rw [upd_same] at hq; cases hq
    rw [upd_ne _ _ hqp] at hq
    rw [upd_ne _ _ hqp]
    exact h.found q hq

theorem A.store {sd obj dom src ret wk} (h : A sd obj dom src ret wk) (c : Nat) (v : Option Nat) (hv : ∀ p, v = some p → obj p = .live ∧ dom p = sd c) : A sd obj dom (upd src c v) ret wk := by
  refine ⟨?_, h.retObj, h.retNd, h.itObj, h.itNd, h.itDisj, h.itRet, h.found⟩
  intro c' q hq
  by_cases hc : c' = c
  · subst hc; rw [upd_same] at hq; exact hv q hq
  · rw [upd_ne _ _ hc] at hq; exact h.live c' q hq

theorem A.step {sd : Nat → Nat} {strict : Bool} {s s' : S} (hA : s.A sd) (hs : Step sd strict s s') : s'.A sd := by
  have hA' : Hazptr.A sd s.obj s.dom s.src s.ret s.wk := hA
  cases hs with
  | alloc p d h => exact hA'.alloc p d h
  | set c p h hd => exact hA'.store c _ fun q hq => by cases hq; exact ⟨h, hd⟩
  | unset c => exact hA'.store c _ fun q hq => by cases hq
  | retire i p h hp hs => exact hA'.retire i p _ _ h rfl hp hs
  | reclaim i p h hp hs => exact hA'.retire i p _ _ h rfl hp hs
  | pushed i d p k h => exact hA'.pushed i d p _ k h
  | repush i d p o k h => exact hA'.same i _ (by rw [h]; rfl) (fun _ => by rw [h]; rfl)
  | count i d h =>
    refine hA'.same i _ ?_ ?_
    · rw [h]; split <;> rfl
    · intro hn; exfalso; apply hn; split <;> rfl
  | timer i d h => exact hA'.same i _ (by rw [h]; rfl) (fun hn => absurd rfl hn)
  | take i d h => exact hA'.take i d h
  | scan i d cur h => exact hA'.same i _ (by rw [h]; rfl) (fun _ => by rw [h]; rfl)
  | scanned i d cur kept h => exact hA'.same i _ (by rw [h]; rfl) (fun _ => by rw [h]; rfl)
  | skip i d e cur l kept h ha => exact hA'.same i _ (by rw [h]; rfl) (fun _ => by rw [h]; rfl)
  | look i d e cur l kept h ha => exact hA'.same i _ (by rw [h]; rfl) (fun _ => by rw [h]; rfl)
  | seen i d e cur l kept h => exact hA'.same i _ (by rw [h]; rfl) (fun _ => by rw [h]; rfl)
  | spare i d p cur kept h hk => exact hA'.same i _ (by rw [h]; rfl) (fun _ => by rw [h]; rfl)
  | destroy i d p cur kept h hk => exact hA'.destroy i d p cur kept h
  | done i d kept h => exact hA'.same i _ (by rw [h]; rfl) (fun hn => absurd rfl hn)
  | _ => exact hA'

/-! ## Entries -/

/-- The entry that a `Hazptr` has. -/
def H.ent : H → Option Nat
  | .slow _ e _ => some e
  | .has _ e _ => some e
  | .keep0 _ e _ => some e
  | .keep1 _ e _ _ => some e
  | .keep2 _ e _ _ => some e
  | .keep3 _ e _ _ => some e
  | .fin _ e => some e
  | _ => none

/-- It is in the list of its domain, and points to what the `Hazptr` keeps. -/
def H.ok (sd : Nat → Nat) (lst : Nat → List Nat) (ptr : Nat → Option Nat) : H → Prop
  | .walk d l => ∀ x ∈ l, x ∈ lst d
  | .xchg d e l => e ∈ lst d ∧ ∀ x ∈ l, x ∈ lst d
  | .has d e p => e ∈ lst d ∧ ∀ q, p = some q → ptr e = some q
  | .keep0 d e c => e ∈ lst d ∧ sd c = d
  | .keep1 d e c _ => e ∈ lst d ∧ sd c = d
  | .keep2 d e c p => e ∈ lst d ∧ sd c = d ∧ ptr e = p
  | .keep3 d e c _ => e ∈ lst d ∧ sd c = d
  | .fin d e => e ∈ lst d
  | _ => True

theorem H.ok_mono {sd : Nat → Nat} {lst lst' : Nat → List Nat} {ptr ptr' : Nat → Option Nat} {x : H} (h : x.ok sd lst ptr) (hl : ∀ d e, e ∈ lst d → e ∈ lst' d)
    (hp : ∀ e, x.ent = some e → ptr' e = ptr e) : x.ok sd lst' ptr' := by
  cases x with
  | off => trivial
  | walk d l => exact fun x hx => hl _ _ (h x hx)
  | xchg d e l => exact ⟨hl _ _ h.1, fun x hx => hl _ _ (h.2 x hx)⟩
  | slow => trivial
  | has d e p => exact ⟨hl _ _ h.1, fun q hq => by rw [hp e rfl]; exact h.2 q hq⟩
  | keep0 => exact ⟨hl _ _ h.1, h.2⟩
  | keep1 => exact ⟨hl _ _ h.1, h.2⟩
  | keep2 d e c p => exact ⟨hl _ _ h.1, h.2.1, by rw [hp e rfl]; exact h.2.2⟩
  | keep3 => exact ⟨hl _ _ h.1, h.2⟩
  | fin => exact hl _ _ h

structure B (sd : Nat → Nat) (ne : Nat) (act : Nat → Bool) (ptr : Nat → Option Nat) (lst : Nat → List Nat) (cache : Nat → List Nat) (hz : Nat → H) : Prop where
  lt : ∀ d e, e ∈ lst d → e < ne
  own : ∀ i e, (hz i).ent = some e → act e = true ∧ e < ne
  uniq : ∀ i j e, (hz i).ent = some e → (hz j).ent = some e → i = j
  cOwn : ∀ t e, e ∈ cache t → act e = true ∧ e ∈ lst 0
  cH : ∀ t i e, e ∈ cache t → (hz i).ent ≠ some e
  cNd : ∀ t, (cache t).Nodup
  cDisj : ∀ t t' e, t ≠ t' → e ∈ cache t → e ∉ cache t'
  ok : ∀ i, (hz i).ok sd lst ptr

def S.B (sd : Nat → Nat) (s : S) : Prop := Hazptr.B sd s.ne s.act s.ptr s.lst s.cache s.hz

theorem B.init (sd : Nat → Nat) : S.init.B sd :=
  ⟨fun _ _ h => (by cases h), fun _ _ h => (by cases h), fun _ _ _ h => (by cases h), fun _ _ h => (by cases h), fun _ _ _ h => (by cases h), fun _ => List.nodup_nil, fun _ _ _ _ h => (by cases h), fun _ => trivial⟩

/-- A `Hazptr` goes on with the same entry, and may write to it. -/
theorem B.go {sd ne act ptr lst cache hz} (h : B sd ne act ptr lst cache hz) (i : Nat) (x : H) (ptr' : Nat → Option Nat) (hx : x.ent = (hz i).ent) (hp : ∀ e, (hz i).ent ≠ some e → ptr' e = ptr e)
    (ho : x.ok sd lst ptr') : B sd ne act ptr' lst cache (upd hz i x) := by
  have e : ∀ j, (upd hz i x j).ent = (hz j).ent := by
    intro j
    by_cases hj : j = i
    · subst hj; rw [upd_same, hx]
    · rw [upd_ne _ _ hj]
  refine ⟨h.lt, fun j => by rw [e]; exact h.own j, fun j k => by rw [e, e]; exact h.uniq j k, h.cOwn, fun t j => by rw [e]; exact h.cH t j, h.cNd, h.cDisj, ?_⟩
  intro j
  by_cases hj : j = i
  · subst hj; rw [upd_same]; exact ho
  · rw [upd_ne _ _ hj]
    exact H.ok_mono (h.ok j) (fun _ _ h => h) fun e he => hp e fun hi => hj (h.uniq j i e he hi)

/-- One without entry gets one that nobody has. -/
theorem B.get {sd ne act ptr lst cache hz} (h : B sd ne act ptr lst cache hz) (i e : Nat) (x : H) (hi : (hz i).ent = none) (hx : x.ent = some e) (he : e < ne) (ha : act e = false) (ho : x.ok sd lst ptr) :
    B sd ne (upd act e true) ptr lst cache (upd hz i x) := by
  have a : ∀ e', act e' = true → upd act e true e' = true := by
    intro e' h'
    rw [upd_apply]
    split
    · rfl
    · exact h'
  have f : ∀ j, (hz j).ent ≠ some e := fun j hj => by rw [(h.own j e hj).1] at ha; cases ha
  have c : ∀ t, e ∉ cache t := fun t ht => by rw [(h.cOwn t e ht).1] at ha; cases ha
  refine ⟨h.lt, ?_, ?_, fun t e' ht => ⟨a _ (h.cOwn t e' ht).1, (h.cOwn t e' ht).2⟩, ?_, h.cNd, h.cDisj, ?_⟩
  · intro j e' hj
    by_cases hji : j = i
    · subst hji
      rw [upd_same, hx] at hj
      cases hj
      exact ⟨upd_same .., he⟩
    · rw [upd_ne _ _ hji] at hj
      exact ⟨a _ (h.own j e' hj).1, (h.own j e' hj).2⟩
  · intro j k e' hj hk
    by_cases hji : j = i <;> by_cases hki : k = i
    · exact hji.trans hki.symm
    · subst hji; rw [upd_same, hx] at hj; cases hj; rw [upd_ne _ _ hki] at hk; exact absurd hk (f k)
    · subst hki; rw [upd_same, hx] at hk; cases hk; rw [upd_ne _ _ hji] at hj; exact absurd hj (f j)
    · rw [upd_ne _ _ hji] at hj; rw [upd_ne _ _ hki] at hk; exact h.uniq j k e' hj hk
  · intro t j e' ht
    by_cases hji : j = i
    · subst hji
      rw [upd_same, hx]
      intro hc
      cases hc
      exact c t ht
    · rw [upd_ne _ _ hji]; exact h.cH t j e' ht
  · intro j
    by_cases hji : j = i
    · subst hji; rw [upd_same]; exact ho
    · rw [upd_ne _ _ hji]; exact h.ok j

/-- One gives its entry away. -/
theorem B.drop {sd ne act ptr lst cache hz} (h : B sd ne act ptr lst cache hz) (i e : Nat) (hi : (hz i).ent = some e) :
    B sd ne (upd act e false) ptr lst cache (upd hz i .off) ∧ B sd ne act ptr lst cache (upd hz i .off) ∧ ∀ j, (upd hz i .off j).ent ≠ some e := by
  have s : ∀ j e', (upd hz i .off j).ent = some e' → (hz j).ent = some e' ∧ j ≠ i := by
    intro j e' hj
    by_cases hji : j = i
    · subst hji; rw [upd_same] at hj; cases hj
    · rw [upd_ne _ _ hji] at hj; exact ⟨hj, hji⟩
  have f : ∀ j, (upd hz i .off j).ent ≠ some e := fun j hj => (s j e hj).2 (h.uniq j i e (s j e hj).1 hi)
  have c : ∀ t, e ∉ cache t := fun t ht => h.cH t i e ht hi
  have o : ∀ j, (upd hz i .off j).ok sd lst ptr := by
    intro j
    by_cases hji : j = i
    · subst hji; rw [upd_same]; trivial
    · rw [upd_ne _ _ hji]; exact h.ok j
  refine ⟨⟨h.lt, ?_, fun j k e' hj hk => h.uniq j k e' (s j e' hj).1 (s k e' hk).1, ?_, fun t j e' ht hj => h.cH t j e' ht (s j e' hj).1, h.cNd, h.cDisj, o⟩,
    ⟨h.lt, fun j e' hj => h.own j e' (s j e' hj).1, fun j k e' hj hk => h.uniq j k e' (s j e' hj).1 (s k e' hk).1, h.cOwn, fun t j e' ht hj => h.cH t j e' ht (s j e' hj).1, h.cNd, h.cDisj, o⟩, f⟩
  · intro j e' hj
    have hne : e' ≠ e := fun he => f j (he ▸ hj)
    rw [upd_ne _ _ hne]
    exact h.own j e' (s j e' hj).1
  · intro t e' ht
    have hne : e' ≠ e := fun he => c t (he ▸ ht)
    rw [upd_ne _ _ hne]
    exact h.cOwn t e' ht

/-- An entry that nobody has goes to the `Hazptr`. -/
theorem B.take {sd ne act ptr lst cache hz} (h : B sd ne act ptr lst cache hz) (i e : Nat) (x : H) (hi : (hz i).ent = none) (hx : x.ent = some e) (he : e < ne) (ha : act e = true) (ho : x.ok sd lst ptr)
    (hf : ∀ j, (hz j).ent ≠ some e) (hc : ∀ t, e ∉ cache t) : B sd ne act ptr lst cache (upd hz i x) := by
  refine ⟨h.lt, ?_, ?_, h.cOwn, ?_, h.cNd, h.cDisj, ?_⟩
  · intro j e' hj
    by_cases hji : j = i
    · subst hji; rw [upd_same, hx] at hj; cases hj; exact ⟨ha, he⟩
    · rw [upd_ne _ _ hji] at hj; exact h.own j e' hj
  · intro j k e' hj hk
    by_cases hji : j = i <;> by_cases hki : k = i
    · exact hji.trans hki.symm
    · subst hji; rw [upd_same, hx] at hj; cases hj; rw [upd_ne _ _ hki] at hk; exact absurd hk (hf k)
    · subst hki; rw [upd_same, hx] at hk; cases hk; rw [upd_ne _ _ hji] at hj; exact absurd hj (hf j)
    · rw [upd_ne _ _ hji] at hj; rw [upd_ne _ _ hki] at hk; exact h.uniq j k e' hj hk
  · intro t j e' ht
    by_cases hji : j = i
    · subst hji
      rw [upd_same, hx]
      intro hc'
      cases hc'
      exact hc t ht
    · rw [upd_ne _ _ hji]; exact h.cH t j e' ht
  · intro j
    by_cases hji : j = i
    · subst hji; rw [upd_same]; exact ho
    · rw [upd_ne _ _ hji]; exact h.ok j

/-- The cache of a thread changes to a part of it. -/
theorem B.uncache {sd ne act ptr lst cache hz} (h : B sd ne act ptr lst cache hz) (t : Nat) (l : List Nat) (hl : l.Sublist (cache t)) : B sd ne act ptr lst (upd cache t l) hz := by
  have s : ∀ t' e, e ∈ upd cache t l t' → e ∈ cache t' := by
    intro t' e he
    by_cases ht : t' = t
    · subst ht; rw [upd_same] at he; exact hl.subset he
    · rw [upd_ne _ _ ht] at he; exact he
  refine ⟨h.lt, h.own, h.uniq, fun t' e he => h.cOwn t' e (s t' e he), fun t' i e he => h.cH t' i e (s t' e he), ?_, fun t1 t2 e hne h1 h2 => h.cDisj t1 t2 e hne (s t1 e h1) (s t2 e h2), h.ok⟩
  intro t'
  by_cases ht : t' = t
  · subst ht; rw [upd_same]; exact (h.cNd t').sublist hl
  · rw [upd_ne _ _ ht]; exact h.cNd t'

/-- It gets one more. -/
theorem B.encache {sd ne act ptr lst cache hz} (h : B sd ne act ptr lst cache hz) (t e : Nat) (ha : act e = true) (hl : e ∈ lst 0) (hf : ∀ j, (hz j).ent ≠ some e) (hc : ∀ t, e ∉ cache t) :
    B sd ne act ptr lst (upd cache t (e :: cache t)) hz := by
  have s : ∀ t' x, x ∈ upd cache t (e :: cache t) t' → (t' = t ∧ x = e) ∨ x ∈ cache t' := by
    intro t' x hx
    by_cases ht : t' = t
    · subst ht
      rw [upd_same] at hx
      rcases List.mem_cons.1 hx with rfl | hx
      · exact .inl ⟨rfl, rfl⟩
      · exact .inr hx
    · rw [upd_ne _ _ ht] at hx; exact .inr hx
  refine ⟨h.lt, h.own, h.uniq, ?_, ?_, ?_, ?_, h.ok⟩
  · intro t' x hx
    rcases s t' x hx with ⟨_, rfl⟩ | hx
    · exact ⟨ha, hl⟩
    · exact h.cOwn t' x hx
  · intro t' i x hx
    rcases s t' x hx with ⟨_, rfl⟩ | hx
    · exact hf i
    · exact h.cH t' i x hx
  · intro t'
    by_cases ht : t' = t
    · subst ht; rw [upd_same]; exact List.nodup_cons.2 ⟨hc t', h.cNd t'⟩
    · rw [upd_ne _ _ ht]; exact h.cNd t'
  · intro t1 t2 x hne h1 h2
    rcases s t1 x h1 with ⟨e1, rfl⟩ | h1' <;> rcases s t2 x h2 with ⟨e2, e3⟩ | h2'
    · exact hne (e1.trans e2.symm)
    · exact hc t2 h2'
    · subst e3; exact hc t1 h1'
    · exact h.cDisj t1 t2 x hne h1' h2'

/-- A new entry. -/
theorem B.fresh {sd ne act ptr lst cache hz} (h : B sd ne act ptr lst cache hz) (i d : Nat) (o : Option Nat) (hi : (hz i).ent = none) :
    B sd (ne + 1) (upd act ne true) (upd ptr ne none) lst cache (upd hz i (.slow d ne o)) := by
  have hlt : ∀ j e, (hz j).ent = some e → e ≠ ne := fun j e hj he => by have := (h.own j e hj).2; omega
  have hcl : ∀ t e, e ∈ cache t → e ≠ ne := fun t e ht he => by have := h.lt 0 e (h.cOwn t e ht).2; omega
  refine ⟨fun d e he => by have := h.lt d e he; omega, ?_, ?_, ?_, ?_, h.cNd, h.cDisj, ?_⟩
  · intro j e hj
    by_cases hji : j = i
    · subst hji; rw [upd_same] at hj; cases hj; exact ⟨upd_same .., by omega⟩
    · rw [upd_ne _ _ hji] at hj
      rw [upd_ne _ _ (hlt j e hj)]
      exact ⟨(h.own j e hj).1, by have := (h.own j e hj).2; omega⟩
  · intro j k e hj hk
    by_cases hji : j = i <;> by_cases hki : k = i
    · exact hji.trans hki.symm
    · subst hji; rw [upd_same] at hj; cases hj; rw [upd_ne _ _ hki] at hk; exact absurd rfl (hlt k _ hk)
    · subst hki; rw [upd_same] at hk; cases hk; rw [upd_ne _ _ hji] at hj; exact absurd rfl (hlt j _ hj)
    · rw [upd_ne _ _ hji] at hj; rw [upd_ne _ _ hki] at hk; exact h.uniq j k e hj hk
  · intro t e ht
    rw [upd_ne _ _ (hcl t e ht)]
    exact h.cOwn t e ht
  · intro t j e ht
    by_cases hji : j = i
    · subst hji
      rw [upd_same]
      intro hc
      cases hc
      exact hcl t _ ht rfl
    · rw [upd_ne _ _ hji]; exact h.cH t j e ht
  · intro j
    by_cases hji : j = i
    · subst hji; rw [upd_same]; trivial
    · rw [upd_ne _ _ hji]
      exact H.ok_mono (h.ok j) (fun _ _ h => h) fun e he => upd_ne _ _ (hlt j e he)

theorem B.link {sd ne act ptr lst cache hz} (h : B sd ne act ptr lst cache hz) (i d e : Nat) (o : Option Nat) (hi : hz i = .slow d e o) :
    B sd ne act ptr (upd lst d (e :: lst d)) cache (upd hz i (.has d e none)) := by
  have hl : ∀ c x, x ∈ lst c → x ∈ upd lst d (e :: lst d) c := by
    intro c x hx
    by_cases hc : c = d
    · subst hc; rw [upd_same]; exact List.mem_cons_of_mem _ hx
    · rw [upd_ne _ _ hc]; exact hx
  have he : e ∈ upd lst d (e :: lst d) d := by rw [upd_same]; exact List.mem_cons_self
  have h1 : B sd ne act ptr (upd lst d (e :: lst d)) cache hz := by
    refine ⟨?_, h.own, h.uniq, fun t x hx => ⟨(h.cOwn t x hx).1, hl _ _ (h.cOwn t x hx).2⟩, h.cH, h.cNd, h.cDisj, fun j => H.ok_mono (h.ok j) hl fun _ _ => rfl⟩
    intro c x hx
    by_cases hc : c = d
    · subst hc
      rw [upd_same] at hx
      rcases List.mem_cons.1 hx with rfl | hx
      · exact (h.own i x (by rw [hi]; rfl)).2
      · exact h.lt c x hx
    · rw [upd_ne _ _ hc] at hx; exact h.lt c x hx
  exact h1.go i _ ptr (by rw [hi]; rfl) (fun _ _ => rfl) ⟨he, fun q hq => by cases hq⟩

/-- One that looks for an entry and has none. -/
theorem B.look {sd ne act ptr lst cache hz} (h : B sd ne act ptr lst cache hz) (i : Nat) (x : H) (hi : (hz i).ent = none) (hx : x.ent = none) (ho : x.ok sd lst ptr) : B sd ne act ptr lst cache (upd hz i x) :=
  h.go i x ptr (by rw [hx, hi]) (fun _ _ => rfl) ho

theorem B.move {sd ne act ptr lst cache hz} (h : B sd ne act ptr lst cache hz) (i j d e : Nat) (p : Option Nat) (hi : hz i = .has d e p) (hj : hz j = .off) :
    B sd ne act ptr lst cache (upd (upd hz i .off) j (.has d e p)) := by
  have ho := h.ok i
  rw [hi] at ho
  have he : (hz i).ent = some e := by rw [hi]; rfl
  obtain ⟨_, h1, h2⟩ := h.drop i e he
  refine h1.take j e _ ?_ rfl (h.own i e he).2 (h.own i e he).1 ho h2 fun t ht => h.cH t i e ht he
  rw [upd_apply]
  split
  · rfl
  · rw [hj]; rfl

theorem B.step {sd : Nat → Nat} {s s' : S} (hB : s.B sd) (hs : Step sd true s s') : s'.B sd := by
  have hB' : Hazptr.B sd s.ne s.act s.ptr s.lst s.cache s.hz := hB
  have hok := hB'.ok
  cases hs with
  | cached i t e l h hc =>
    have he : e ∈ s.cache t := by rw [hc]; exact List.mem_cons_self
    have hnd := hB'.cNd t
    rw [hc, List.nodup_cons] at hnd
    have h1 := hB'.uncache t l (by rw [hc]; exact List.sublist_cons_self ..)
    refine h1.take i e _ (by rw [h]; rfl) rfl (hB'.lt 0 e (hB'.cOwn t e he).2) (hB'.cOwn t e he).1 ⟨(hB'.cOwn t e he).2, fun q hq => by cases hq⟩ (fun j => hB'.cH t j e he) ?_
    intro t'
    by_cases ht : t' = t
    · subst ht; rw [upd_same]; exact hnd.1
    · rw [upd_ne _ _ ht]; exact hB'.cDisj t t' e (fun h => ht h.symm) he
  | new i d h => exact hB'.look i _ (by rw [h]; rfl) rfl fun x hx => hx
  | busy i d e l h ha =>
    have ho := hok i; rw [h] at ho
    exact hB'.look i _ (by rw [h]; rfl) rfl fun x hx => ho x (List.mem_cons_of_mem _ hx)
  | idle i d e l h ha =>
    have ho := hok i; rw [h] at ho
    exact hB'.look i _ (by rw [h]; rfl) rfl ⟨ho e List.mem_cons_self, fun x hx => ho x (List.mem_cons_of_mem _ hx)⟩
  | lost i d e l h ha =>
    have ho := hok i; rw [h] at ho
    exact hB'.look i _ (by rw [h]; rfl) rfl ho.2
  | won i d e l h ha =>
    have ho := hok i; rw [h] at ho
    exact hB'.get i e _ (by rw [h]; rfl) rfl (hB'.lt d e ho.1) ha ⟨ho.1, fun q hq => by cases hq⟩
  | make i d h => exact hB'.fresh i d _ (by rw [h]; rfl)
  | link i d e h => exact hB'.link i d e _ h
  | relink i d e o h => exact hB'.go i _ s.ptr (by rw [h]; rfl) (fun _ _ => rfl) trivial
  | keep i d e c p h hd =>
    have ho := hok i; rw [h] at ho
    exact hB'.go i _ s.ptr (by rw [h]; rfl) (fun _ _ => rfl) ⟨ho.1, hd⟩
  | «try» i d e c p q h hd =>
    have ho := hok i; rw [h] at ho
    exact hB'.go i _ s.ptr (by rw [h]; rfl) (fun _ _ => rfl) ⟨ho.1, hd⟩
  | load i d e c h =>
    have ho := hok i; rw [h] at ho
    exact hB'.go i _ s.ptr (by rw [h]; rfl) (fun _ _ => rfl) ho
  | expose i d e c p h =>
    have ho := hok i; rw [h] at ho
    refine hB'.go i _ _ (by rw [h]; rfl) (fun e' he => upd_ne _ _ fun hc => he (by rw [h, hc]; rfl)) ⟨ho.1, ho.2, upd_same ..⟩
  | kept i d e c p h hp =>
    have ho := hok i; rw [h] at ho
    exact hB'.go i _ s.ptr (by rw [h]; rfl) (fun _ _ => rfl) ⟨ho.1, fun q hq => by rw [ho.2.2, hq]⟩
  | differs i d e c p h hp =>
    have ho := hok i; rw [h] at ho
    exact hB'.go i _ s.ptr (by rw [h]; rfl) (fun _ _ => rfl) ⟨ho.1, ho.2.1⟩
  | again i d e c q h =>
    have ho := hok i; rw [h] at ho
    exact hB'.go i _ _ (by rw [h]; rfl) (fun e' he => upd_ne _ _ fun hc => he (by rw [h, hc]; rfl)) ho
  | failed i d e c q h =>
    have ho := hok i; rw [h] at ho
    exact hB'.go i _ _ (by rw [h]; rfl) (fun e' he => upd_ne _ _ fun hc => he (by rw [h, hc]; rfl)) ⟨ho.1, fun q hq => by cases hq⟩
  | clear i d e p h =>
    have ho := hok i; rw [h] at ho
    exact hB'.go i _ _ (by rw [h]; rfl) (fun e' he => upd_ne _ _ fun hc => he (by rw [h, hc]; rfl)) ⟨ho.1, fun q hq => by cases hq⟩
  | reset i d e p h =>
    have ho := hok i; rw [h] at ho
    exact hB'.go i _ _ (by rw [h]; rfl) (fun e' he => upd_ne _ _ fun hc => he (by rw [h, hc]; rfl)) ho.1
  | store i t e h hr =>
    have ho := hok i; rw [h] at ho
    have he : (s.hz i).ent = some e := by rw [h]; rfl
    obtain ⟨_, h1, h2⟩ := hB'.drop i e he
    exact h1.encache t e (hB'.own i e he).1 ho h2 fun t ht => hB'.cH t i e ht he
  | release i d e h => exact (hB'.drop i e (by rw [h]; rfl)).1
  | move i j d e p h hj => exact hB'.move i j d e p h hj
  | assign i j d d' e p h hj hs =>
    cases hs rfl
    exact hB'.move i j _ e p h hj
  | exit t => exact hB'.uncache t [] (List.nil_sublist _)
  | _ => exact hB'

/-! ## What is kept is not destroyed -/

/-- A thread that has begun to look at the entries has not passed by one that keeps one of its objects. -/
def W.covers (hz : Nat → H) : W → Prop
  | .scanA _ cur l kept => ∀ p ∈ cur, ∀ i d e, hz i = .has d e (some p) → e ∈ l ∨ p ∈ kept
  | .scanP _ cur e' l kept => ∀ p ∈ cur, ∀ i d e, hz i = .has d e (some p) → e = e' ∨ e ∈ l ∨ p ∈ kept
  | .sweep _ cur kept => ∀ p ∈ cur, ∀ i d e, hz i = .has d e (some p) → p ∈ kept
  | .push _ _ _ (.sweep kept cur) => ∀ p ∈ cur, ∀ i d e, hz i = .has d e (some p) → p ∈ kept
  | _ => True

structure C (obj : Nat → Obj) (dom : Nat → Nat) (hz : Nat → H) (wk : Nat → W) (bad : Bool) : Prop where
  safe : ∀ i d e p, hz i = .has d e (some p) → obj p ≠ .free ∧ dom p = d
  covers : ∀ w, (wk w).covers hz
  good : bad = false

def S.C (s : S) : Prop := Hazptr.C s.obj s.dom s.hz s.wk s.bad

theorem covers_sub {hz hz' : Nat → H} {w : W} (h : w.covers hz) (hs : ∀ i d e p, p ∈ w.items → hz' i = .has d e (some p) → ∃ j, hz j = .has d e (some p)) : w.covers hz' := by
  cases w with
  | scanA d cur l kept =>
    intro p hp i d e hi
    obtain ⟨j, hj⟩ := hs i d e p hp hi
    exact h p hp j d e hj
  | scanP d cur e' l kept =>
    intro p hp i d e hi
    obtain ⟨j, hj⟩ := hs i d e p hp hi
    exact h p hp j d e hj
  | sweep d cur kept =>
    intro p hp i d e hi
    obtain ⟨j, hj⟩ := hs i d e p hp hi
    exact h p hp j d e hj
  | push d q o k =>
    cases k with
    | sweep kept cur =>
      intro p hp i d e hi
      obtain ⟨j, hj⟩ := hs i d e p (List.mem_cons_of_mem _ hp) hi
      exact h p hp j d e hj
    | _ => trivial
  | _ => trivial

/-- No `Hazptr` keeps more than before. -/
theorem C.less {obj dom hz wk bad} (h : C obj dom hz wk bad) (hz' : Nat → H) (hs : ∀ i d e p, hz' i = .has d e (some p) → ∃ j, hz j = .has d e (some p)) : C obj dom hz' wk bad :=
  ⟨fun i d e p hi => by obtain ⟨j, hj⟩ := hs i d e p hi; exact h.safe j d e p hj, fun w => covers_sub (h.covers w) fun i d e p _ hi => hs i d e p hi, h.good⟩

theorem C.go {obj dom hz wk bad} (h : C obj dom hz wk bad) (i : Nat) (x : H) (hx : ∀ d e p, x ≠ .has d e (some p)) : C obj dom (upd hz i x) wk bad := by
  refine h.less _ fun j d e p hj => ?_
  by_cases hji : j = i
  · subst hji; rw [upd_same] at hj; exact absurd hj (hx d e p)
  · rw [upd_ne _ _ hji] at hj; exact ⟨j, hj⟩

/-- A thread goes on. -/
theorem C.work {obj dom hz wk bad} (h : C obj dom hz wk bad) (w : Nat) (x : W) (hx : x.covers hz) : C obj dom hz (upd wk w x) bad := by
  refine ⟨h.safe, fun j => ?_, h.good⟩
  by_cases hj : j = w
  · subst hj; rw [upd_same]; exact hx
  · rw [upd_ne _ _ hj]; exact h.covers j

/-- An object changes its state, and is free only if nobody keeps it. -/
theorem C.obj {obj dom hz wk bad} (h : C obj dom hz wk bad) (p : Nat) (o : Obj) (ho : o = .free → ∀ i d e, hz i ≠ .has d e (some p)) : C (upd obj p o) dom hz wk bad := by
  refine ⟨fun i d e q hi => ⟨?_, (h.safe i d e q hi).2⟩, h.covers, h.good⟩
  by_cases hq : q = p
  · subst hq
    rw [upd_same]
    exact fun hf => ho hf i d e hi
  · rw [upd_ne _ _ hq]
    exact (h.safe i d e q hi).1

theorem C.init : S.init.C := ⟨fun _ _ _ _ h => (by cases h), fun _ => trivial, rfl⟩

theorem C.step {sd : Nat → Nat} {s s' : S} (hA : s.A sd) (hB : s.B sd) (hC : s.C) (hs : Step sd true s s') : s'.C := by
  have hA' : Hazptr.A sd s.obj s.dom s.src s.ret s.wk := hA
  have hB' : Hazptr.B sd s.ne s.act s.ptr s.lst s.cache s.hz := hB
  have hC' : Hazptr.C s.obj s.dom s.hz s.wk s.bad := hC
  have hcov := hC'.covers
  cases hs with
  | cached i t e l h hc => exact hC'.go i _ (fun _ _ _ => nofun)
  | new i d h => exact hC'.go i _ (fun _ _ _ => nofun)
  | busy i d e l h ha => exact hC'.go i _ (fun _ _ _ => nofun)
  | idle i d e l h ha => exact hC'.go i _ (fun _ _ _ => nofun)
  | lost i d e l h ha => exact hC'.go i _ (fun _ _ _ => nofun)
  | won i d e l h ha => exact hC'.go i _ (fun _ _ _ => nofun)
  | make i d h => exact hC'.go i _ (fun _ _ _ => nofun)
  | link i d e h => exact hC'.go i _ (fun _ _ _ => nofun)
  | relink i d e o h => exact hC'.go i _ (fun _ _ _ => nofun)
  | keep i d e c p h hd => exact hC'.go i _ (fun _ _ _ => nofun)
  | «try» i d e c p q h hd => exact hC'.go i _ (fun _ _ _ => nofun)
  | load i d e c h => exact hC'.go i _ (fun _ _ _ => nofun)
  | expose i d e c p h => exact hC'.go i _ (fun _ _ _ => nofun)
  | kept i d e c p h hp =>
    have ho := hB'.ok i
    rw [h] at ho
    have key : ∀ j d' e' q, upd s.hz i (.has d e p) j = .has d' e' (some q) → (s.hz j = .has d' e' (some q)) ∨ (s.obj q = .live ∧ s.dom q = d') := by
      intro j d' e' q hj
      by_cases hji : j = i
      · subst hji
        rw [upd_same] at hj
        cases hj
        have := hA'.live c q hp
        exact .inr ⟨this.1, this.2.trans ho.2.1⟩
      · rw [upd_ne _ _ hji] at hj; exact .inl hj
    refine ⟨fun j d' e' q hj => ?_, fun w => covers_sub (hcov w) fun j d' e' q hq hj => ?_, hC'.good⟩
    · rcases key j d' e' q hj with h1 | ⟨h1, h2⟩
      · exact hC'.safe j d' e' q h1
      · exact ⟨by rw [show (s.h i (.has d e p)).obj = s.obj from rfl, h1]; nofun, h2⟩
    · rcases key j d' e' q hj with h1 | ⟨h1, _⟩
      · exact ⟨j, h1⟩
      · have := (hA'.itObj w q hq).1
        rw [h1] at this
        cases this
  | differs i d e c p h hp => exact hC'.go i _ (fun _ _ _ => nofun)
  | again i d e c q h => exact hC'.go i _ (fun _ _ _ => nofun)
  | failed i d e c q h => exact hC'.go i _ (fun _ _ _ => nofun)
  | use i d e p h =>
    refine ⟨hC'.safe, hcov, ?_⟩
    show (s.bad || decide (s.obj p = .free)) = false
    rw [hC'.good, decide_eq_false (hC'.safe i d e p h).1]
    rfl
  | clear i d e p h => exact hC'.go i _ (fun _ _ _ => nofun)
  | reset i d e p h => exact hC'.go i _ (fun _ _ _ => nofun)
  | store i t e h hr => exact hC'.go i _ (fun _ _ _ => nofun)
  | release i d e h => exact hC'.go i _ (fun _ _ _ => nofun)
  | move i j d e p h hj =>
    refine hC'.less _ fun k d' e' q hk => ?_
    have hk' : upd (upd s.hz i .off) j (.has d e p) k = .has d' e' (some q) := hk
    by_cases hkj : k = j
    · subst hkj; rw [upd_same] at hk'; exact ⟨i, by rw [h, hk']⟩
    · rw [upd_ne _ _ hkj, upd_apply] at hk'
      split at hk'
      · cases hk'
      · exact ⟨k, hk'⟩
  | assign i j d d' e p h hj hs =>
    cases hs rfl
    refine hC'.less _ fun k d' e' q hk => ?_
    have hk' : upd (upd s.hz i .off) j (.has d e p) k = .has d' e' (some q) := hk
    by_cases hkj : k = j
    · subst hkj; rw [upd_same] at hk'; exact ⟨i, by rw [h, hk']⟩
    · rw [upd_ne _ _ hkj, upd_apply] at hk'
      split at hk'
      · cases hk'
      · exact ⟨k, hk'⟩
  | exit t => exact hC'
  | alloc p d h =>
    have hn : ∀ i d e, s.hz i ≠ .has d e (some p) := fun i d e hi => (hC'.safe i d e p hi).1 h
    refine ⟨fun i d' e q hi => ?_, hcov, hC'.good⟩
    have hq : q ≠ p := fun hq => hn i d' e (hq ▸ hi)
    show upd s.obj p .live q ≠ .free ∧ upd s.dom p d q = d'
    rw [upd_ne _ _ hq, upd_ne _ _ hq]
    exact hC'.safe i d' e q hi
  | set c p h hd => exact hC'
  | unset c => exact hC'
  | retire i p h hp hs => exact (hC'.obj p .retired nofun).work i _ trivial
  | reclaim i p h hp hs => exact (hC'.obj p .retired nofun).work i _ trivial
  | pushed i d p k h =>
    have hw := hcov i
    rw [h] at hw
    refine hC'.work i _ ?_
    cases k with
    | sweep kept cur => exact hw
    | _ => trivial
  | repush i d p o k h =>
    have hw := hcov i
    rw [h] at hw
    refine hC'.work i _ ?_
    cases k with
    | sweep kept cur => exact hw
    | _ => trivial
  | count i d h =>
    refine hC'.work i _ ?_
    split <;> trivial
  | timer i d h => exact hC'.work i _ trivial
  | take i d h =>
    refine hC'.work i _ ?_
    split <;> trivial
  | scan i d cur h =>
    refine hC'.work i _ fun p hp j d' e hj => .inl ?_
    have h1 := (hA'.itObj i p (by rw [h]; exact hp)).2
    rw [h, (hC'.safe j d' e p hj).2] at h1
    have h2 := hB'.ok j
    rw [hj] at h2
    have h3 : d' = d := h1
    rw [← h3]
    exact h2.1
  | scanned i d cur kept h =>
    have hw := hcov i
    rw [h] at hw
    refine hC'.work i _ fun p hp j d' e hj => ?_
    rcases hw p hp j d' e hj with h1 | h1
    · cases h1
    · exact h1
  | skip i d e0 cur l kept h ha =>
    have hw := hcov i
    rw [h] at hw
    refine hC'.work i _ fun p hp j d' e hj => ?_
    rcases hw p hp j d' e hj with h1 | h1
    · rcases List.mem_cons.1 h1 with rfl | h2
      · have := (hB'.own j e (by rw [hj]; rfl)).1
        rw [ha] at this
        cases this
      · exact .inl h2
    · exact .inr h1
  | look i d e0 cur l kept h ha =>
    have hw := hcov i
    rw [h] at hw
    refine hC'.work i _ fun p hp j d' e hj => ?_
    rcases hw p hp j d' e hj with h1 | h1
    · rcases List.mem_cons.1 h1 with rfl | h2
      · exact .inl rfl
      · exact .inr (.inl h2)
    · exact .inr (.inr h1)
  | seen i d e0 cur l kept h =>
    have hw := hcov i
    rw [h] at hw
    refine hC'.work i _ fun p hp j d' e hj => ?_
    rcases hw p hp j d' e hj with rfl | h1 | h1
    · have h2 := hB'.ok j
      rw [hj] at h2
      right
      rw [h2.2 p rfl]
      exact List.mem_cons_self
    · exact .inl h1
    · exact .inr (List.mem_append_right _ h1)
  | spare i d p cur kept h hk =>
    have hw := hcov i
    rw [h] at hw
    exact hC'.work i _ fun q hq => hw q (List.mem_cons_of_mem _ hq)
  | destroy i d p cur kept h hk =>
    have hw := hcov i
    rw [h] at hw
    have hn : ∀ j d' e, s.hz j ≠ .has d' e (some p) := fun j d' e hj => hk (hw p List.mem_cons_self j d' e hj)
    have h1 := ((hC'.obj p .free fun _ => hn).work i (.sweep d cur kept) fun q hq => hw q (List.mem_cons_of_mem _ hq))
    refine ⟨h1.safe, h1.covers, ?_⟩
    show (s.bad || decide (s.obj p = .free)) = false
    rw [hC'.good, (hA'.itObj i p (by rw [h]; exact List.mem_cons_self)).1]
    rfl
  | done i d kept h => exact hC'.work i _ trivial

theorem Reach.inv {sd : Nat → Nat} {s : S} (h : Reach sd true s) : s.A sd ∧ s.B sd ∧ s.C := by
  induction h with
  | init => exact ⟨A.init sd, B.init sd, C.init⟩
  | step _ hs ih => exact ⟨A.step ih.1 hs, B.step ih.2.1 hs, C.step ih.1 ih.2.1 ih.2.2 hs⟩

/-! ## The properties -/

/-- What a `Hazptr` keeps is not destroyed; nothing is used after it was destroyed, or destroyed again. -/
theorem C136_safe {sd : Nat → Nat} {s : S} (h : Reach sd true s) : s.bad = false ∧ ∀ i d e p, s.hz i = .has d e (some p) → s.obj p ≠ .free :=
  ⟨h.inv.2.2.good, fun i d e p hi => (h.inv.2.2.safe i d e p hi).1⟩

theorem count_one : ∀ {l : List Nat} {p : Nat}, l.Nodup → p ∈ l → l.count p = 1
  | q :: l, p, hn, hm => by
    rw [List.nodup_cons] at hn
    by_cases h : q = p
    · subst h
      rw [List.count_cons_self, List.count_eq_zero.2 hn.1]
    · rw [List.count_cons_of_ne h]
      exact count_one hn.2 ((List.mem_cons.1 hm).resolve_left fun e => h e.symm)

/-- How often an object is among those of a thread. -/
def S.held (s : S) (w p : Nat) : Nat := (s.wk w).items.count p

/-- A retired object is not lost, and is at one place only: in the list of its domain, or with one thread. -/
theorem C136_once {sd : Nat → Nat} {s : S} (h : Reach sd true s) (p : Nat) (hp : s.obj p = .retired) :
    ((s.ret (s.dom p)).count p = 1 ∧ (∀ w, s.held w p = 0) ∨ (∃ w, s.held w p = 1 ∧ ∀ w', w' ≠ w → s.held w' p = 0) ∧ (s.ret (s.dom p)).count p = 0) ∧ ∀ d, d ≠ s.dom p → (s.ret d).count p = 0 := by
  have hA : Hazptr.A sd s.obj s.dom s.src s.ret s.wk := h.inv.1
  refine ⟨?_, fun d hd => List.count_eq_zero.2 fun hm => hd (hA.retObj d p hm).2.symm⟩
  rcases hA.found p hp with h1 | ⟨w, h1⟩
  · exact .inl ⟨count_one (hA.retNd _) h1, fun w => List.count_eq_zero.2 fun hm => hA.itRet w _ p hm h1⟩
  · exact .inr ⟨⟨w, count_one (hA.itNd w) h1, fun w' hw => List.count_eq_zero.2 (hA.itDisj w w' p (fun e => hw e.symm) h1)⟩, List.count_eq_zero.2 (hA.itRet w _ p h1)⟩

/-- Two `Hazptr`s do not have one entry. -/
theorem C136_exclusive {sd : Nat → Nat} {s : S} (h : Reach sd true s) (i j e : Nat) (hi : (s.hz i).ent = some e) (hj : (s.hz j).ent = some e) : i = j :=
  have hB : Hazptr.B sd s.ne s.act s.ptr s.lst s.cache s.hz := h.inv.2.1
  hB.uniq i j e hi hj

/-- Several steps. -/
inductive Steps (sd : Nat → Nat) (strict : Bool) : S → S → Prop
  | refl (s : S) : Steps sd strict s s
  | head {s t u : S} (h : Step sd strict s t) (hs : Steps sd strict t u) : Steps sd strict s u

theorem Steps.trans {sd : Nat → Nat} {b : Bool} {s t u : S} (h : Steps sd b s t) (h' : Steps sd b t u) : Steps sd b s u := by
  induction h with
  | refl => exact h'
  | head h _ ih => exact .head h (ih h')

theorem Steps.reach {sd : Nat → Nat} {b : Bool} {s t : S} (hs : Reach sd b s) (h : Steps sd b s t) : Reach sd b t := by
  induction h with
  | refl => exact hs
  | head h _ ih => exact ih (.step hs h)

theorem w_w (s : S) (i : Nat) (x y : W) : (s.w i x).w i y = s.w i y := by
  have : upd (upd s.wk i x) i y = upd s.wk i y := by
    funext j
    rw [upd_apply, upd_apply, upd_apply]
    split <;> rfl
  show ({ s with wk := upd (upd s.wk i x) i y } : S) = _
  rw [this]
  rfl

theorem w_at (s : S) (i : Nat) (x : W) : (s.w i x).wk i = x := upd_same ..

theorem h_at (s : S) (i : Nat) (x : H) : (s.h i x).hz i = x := upd_same ..

theorem scan_run {sd : Nat → Nat} {b : Bool} (w d : Nat) (cur : List Nat) : ∀ (l : List Nat) (s : S) (kept : List Nat), s.wk w = .scanA d cur l kept →
    ∃ kept', Steps sd b s (s.w w (.sweep d cur kept')) ∧ ∀ p, p ∈ kept' ↔ p ∈ kept ∨ ∃ e ∈ l, s.act e = true ∧ s.ptr e = some p := by
  intro l
  induction l with
  | nil =>
    intro s kept h
    exact ⟨kept, .head (.scanned w d cur kept h) (.refl _), by simp⟩
  | cons e l ih =>
    intro s kept h
    by_cases ha : s.act e = true
    · have e1 := w_at s w (.scanP d cur e l kept)
      have s1 : Step sd b s (s.w w (.scanP d cur e l kept)) := .look w d e cur l kept h ha
      have s2 := Step.seen (sd := sd) (strict := b) (s := s.w w (.scanP d cur e l kept)) w d e cur l kept e1
      rw [w_w] at s2
      obtain ⟨kept', h1, h2⟩ := ih _ _ (w_at s w (.scanA d cur l ((s.ptr e).toList ++ kept)))
      rw [w_w] at h1
      refine ⟨kept', .head s1 (.head s2 h1), fun p => ?_⟩
      rw [h2 p]
      show (p ∈ (s.ptr e).toList ++ kept ∨ ∃ x ∈ l, s.act x = true ∧ s.ptr x = some p) ↔ _
      rw [List.mem_append, Option.mem_toList]
      constructor
      · rintro ((hp | hp) | ⟨x, hx, hp⟩)
        · exact .inr ⟨e, List.mem_cons_self, ha, hp⟩
        · exact .inl hp
        · exact .inr ⟨x, List.mem_cons_of_mem _ hx, hp⟩
      · rintro (hp | ⟨x, hx, h3, h4⟩)
        · exact .inl (.inr hp)
        · rcases List.mem_cons.1 hx with rfl | hx
          · exact .inl (.inl h4)
          · exact .inr ⟨x, hx, h3, h4⟩
    · have ha' : s.act e = false := by simpa using ha
      have s1 : Step sd b s (s.w w (.scanA d cur l kept)) := .skip w d e cur l kept h ha'
      obtain ⟨kept', h1, h2⟩ := ih _ _ (w_at s w (.scanA d cur l kept))
      rw [w_w] at h1
      refine ⟨kept', .head s1 h1, fun p => ?_⟩
      rw [h2 p]
      constructor
      · rintro (hp | ⟨x, hx, hp⟩)
        · exact .inl hp
        · exact .inr ⟨x, List.mem_cons_of_mem _ hx, hp⟩
      · rintro (hp | ⟨x, hx, h3, h4⟩)
        · exact .inl hp
        · rcases List.mem_cons.1 hx with rfl | hx
          · exact absurd h3 ha
          · exact .inr ⟨x, hx, h3, h4⟩

/-- Only thread `w` has done something, to retired objects. -/
structure Alone (w : Nat) (s t : S) : Prop where
  hz : t.hz = s.hz
  src : t.src = s.src
  wk : ∀ j, j ≠ w → t.wk j = s.wk j

theorem Alone.trans {w : Nat} {s t u : S} (h : Alone w s t) (h' : Alone w t u) : Alone w s u :=
  ⟨h'.hz.trans h.hz, h'.src.trans h.src, fun j hj => (h'.wk j hj).trans (h.wk j hj)⟩

theorem sweep_run {sd : Nat → Nat} {b : Bool} (w d : Nat) (kept : List Nat) : ∀ (cur : List Nat) (s : S), s.wk w = .sweep d cur kept →
    ∃ t, Steps sd b s t ∧ t.wk w = .idle ∧ Alone w s t ∧ (∀ p, p ∈ cur → p ∉ kept → t.obj p = .free) ∧ (∀ p, s.obj p = .free → t.obj p = .free) ∧ ∀ p, p ∉ cur ∨ p ∈ kept → t.obj p = s.obj p := by
  intro cur
  induction cur with
  | nil =>
    intro s h
    exact ⟨s.w w .idle, .head (.done w d kept h) (.refl _), w_at .., ⟨rfl, rfl, fun j hj => upd_ne _ _ hj⟩, fun p hp => (by cases hp), fun _ h => h, fun _ _ => rfl⟩
  | cons q cur ih =>
    intro s h
    by_cases hk : q ∈ kept
    · have s1 : Step sd b s (s.w w (.push d q (s.ret d).head? (.sweep kept cur))) := .spare w d q cur kept h hk
      have s2 := Step.pushed (sd := sd) (strict := b) (s := s.w w (.push d q (s.ret d).head? (.sweep kept cur))) w d q (.sweep kept cur) (w_at ..)
      obtain ⟨t, h1, h2, h3, h4, h5, h6⟩ := ih _ (w_at ((s.w w (.push d q (s.ret d).head? (.sweep kept cur))).setRet d (q :: (s.w w (.push d q (s.ret d).head? (.sweep kept cur))).ret d)) w (.sweep d cur kept))
      refine ⟨t, .head s1 (.head s2 h1), h2, Alone.trans (t := _) ?_ h3, ?_, fun p hp => h5 p hp, ?_⟩
      · refine ⟨rfl, rfl, fun j hj => ?_⟩
        show upd (upd s.wk w _) w _ j = _
        rw [upd_ne _ _ hj, upd_ne _ _ hj]
      · intro p hp hn
        rcases List.mem_cons.1 hp with rfl | hp
        · exact absurd hk hn
        · exact h4 p hp hn
      · intro p hp
        refine h6 p ?_
        rcases hp with hp | hp
        · exact .inl fun hm => hp (List.mem_cons_of_mem _ hm)
        · exact .inr hp
    · have s1 := Step.destroy (sd := sd) (strict := b) (s := s) w d q cur kept h hk
      obtain ⟨t, h1, h2, h3, h4, h5, h6⟩ := ih _ (w_at (S.mark (s.setObj q .free) (decide (s.obj q = .free))) w (.sweep d cur kept))
      refine ⟨t, .head s1 h1, h2, Alone.trans ?_ h3, ?_, ?_, ?_⟩
      · exact ⟨rfl, rfl, fun j hj => upd_ne _ _ hj⟩
      · intro p hp hn
        rcases List.mem_cons.1 hp with rfl | hp
        · exact h5 p (upd_same ..)
        · exact h4 p hp hn
      · intro p hp
        refine h5 p ?_
        show upd s.obj q .free p = .free
        rw [upd_apply]
        split
        · rfl
        · exact hp
      · intro p hp
        have hpq : p ≠ q := by
          rintro rfl
          rcases hp with hp | hp
          · exact hp List.mem_cons_self
          · exact hk hp
        rw [h6 p]
        · exact upd_ne _ _ hpq
        · rcases hp with hp | hp
          · exact .inl fun hm => hp (List.mem_cons_of_mem _ hm)
          · exact .inr hp

/-- A thread that reclaims without others destroys all retired objects of the domain that no entry points to, and no others. -/
theorem C136_reclaimed {sd : Nat → Nat} {b : Bool} (s : S) (w d : Nat) (h : s.wk w = .take d) :
    ∃ t, Steps sd b s t ∧ t.wk w = .idle ∧ Alone w s t ∧
      (∀ p, p ∈ s.ret d → (∀ e ∈ s.lst d, s.act e = true → s.ptr e ≠ some p) → t.obj p = .free) ∧
      ∀ p, p ∉ s.ret d ∨ (∃ e ∈ s.lst d, s.act e = true ∧ s.ptr e = some p) → t.obj p = s.obj p := by
  have s1 := Step.take (sd := sd) (strict := b) (s := s) w d h
  by_cases hr : s.ret d = []
  · rw [if_pos hr] at s1
    refine ⟨_, .head s1 (.refl _), w_at .., ⟨rfl, rfl, fun j hj => upd_ne _ _ hj⟩, fun p hp => ?_, fun _ _ => rfl⟩
    rw [hr] at hp
    cases hp
  · rw [if_neg hr] at s1
    have s2 := Step.scan (sd := sd) (strict := b) (s := (s.setRet d []).w w (.scan d (s.ret d))) w d (s.ret d) (w_at ..)
    rw [w_w] at s2
    obtain ⟨kept, h1, h2⟩ := scan_run (sd := sd) (b := b) w d (s.ret d) _ _ _ (w_at (s.setRet d []) w (.scanA d (s.ret d) (s.lst d) []))
    have s2' : Step sd b ((s.setRet d []).w w (.scan d (s.ret d))) ((s.setRet d []).w w (.scanA d (s.ret d) (s.lst d) [])) := s2
    rw [w_w] at h1
    obtain ⟨t, h3, h4, h5, h6, _, h7⟩ := sweep_run (sd := sd) (b := b) w d kept (s.ret d) _ (w_at (s.setRet d []) w (.sweep d (s.ret d) kept))
    have hk : ∀ p, p ∈ kept ↔ ∃ e ∈ s.lst d, s.act e = true ∧ s.ptr e = some p := fun p => (h2 p).trans (by simp only [List.not_mem_nil, false_or]; rfl)
    refine ⟨t, .head s1 (.head s2' (h1.trans h3)), h4, Alone.trans ?_ h5, fun p hp hn => h6 p hp ?_, fun p hp => ?_⟩
    · exact ⟨rfl, rfl, fun j hj => upd_ne _ _ hj⟩
    · intro hm
      obtain ⟨e, he, h8, h9⟩ := (hk p).1 hm
      exact hn e he h8 h9
    · exact h7 p (hp.imp id (hk p).2)

/-! ## What goes wrong -/

/-- An entry that is active and that no `Hazptr` and no thread has. -/
def S.leaked (s : S) (e : Nat) : Prop := s.act e = true ∧ e < s.ne ∧ (∀ i, (s.hz i).ent ≠ some e) ∧ ∀ t, e ∉ s.cache t

/-- `walk` passes by active entries. -/
theorem walk_run {sd : Nat → Nat} {b : Bool} (i d : Nat) : ∀ (l : List Nat) (s : S), s.hz i = .walk d l → (∀ e ∈ l, s.act e = true) → Steps sd b s (s.h i (.walk d [])) := by
  intro l
  induction l with
  | nil =>
    intro s h _
    have : s.h i (.walk d []) = s := by
      have e : upd s.hz i (.walk d []) = s.hz := by
        funext j
        rw [upd_apply]
        split
        · rename_i hj; rw [hj, h]
        · rfl
      show ({ s with hz := upd s.hz i (.walk d []) } : S) = s
      rw [e]
    rw [this]
    exact .refl _
  | cons e l ih =>
    intro s h ha
    have h1 := ih (s.h i (.walk d l)) (upd_same ..) fun x hx => ha x (List.mem_cons_of_mem _ hx)
    have h2 : (s.h i (.walk d l)).h i (.walk d []) = s.h i (.walk d []) := by
      have : upd (upd s.hz i (.walk d l)) i (.walk d []) = upd s.hz i (.walk d []) := by
        funext j
        rw [upd_apply, upd_apply, upd_apply]
        split <;> rfl
      show ({ s with hz := upd (upd s.hz i (.walk d l)) i (.walk d []) } : S) = _
      rw [this]
      rfl
    rw [h2] at h1
    exact .head (.busy i d e l h (ha e List.mem_cons_self)) h1

/-- The entries that a thread has in its cache when it ends stay active: `n` threads that use one `Hazptr` after the other and end leave `n` entries that nobody has, and all of them are looked at by every reclaim. -/
theorem C137_leak_partial (sd : Nat → Nat) (n : Nat) : ∃ s, Reach sd true s ∧ (s.lst 0).length = n ∧ (s.lst 0).Nodup ∧ ∀ e ∈ s.lst 0, s.leaked e := by
  have key : ∃ s, Reach sd true s ∧ (s.lst 0).length = n ∧ (s.lst 0).Nodup ∧ (∀ e ∈ s.lst 0, s.act e = true ∧ e < s.ne) ∧ (∀ i, s.hz i = .off) ∧ ∀ t, s.cache t = [] := by
    induction n with
    | zero => exact ⟨S.init, .init, rfl, List.nodup_nil, fun _ h => (by cases h), fun _ => rfl, fun _ => rfl⟩
    | succ n ih =>
      obtain ⟨s, h1, h2, h3, h4, h5, h6⟩ := ih
      let s1 := s.h 0 (.walk 0 (s.lst 0))
      have r1 : Reach sd true s1 := .step h1 (.new 0 0 (h5 0))
      let s2 := s1.h 0 (.walk 0 [])
      have r2 : Reach sd true s2 := Steps.reach r1 (walk_run 0 0 (s.lst 0) s1 (h_at ..) fun e he => (h4 e he).1)
      let s3 := s2.fresh.h 0 (.slow 0 s.ne (s.lst 0).head?)
      have r3 : Reach sd true s3 := .step r2 (.make 0 0 (h_at ..))
      let s4 := (s3.pushEntry 0 s.ne).h 0 (.has 0 s.ne none)
      have r4 : Reach sd true s4 := .step r3 (.link 0 0 s.ne (h_at ..))
      let s5 := (s4.expose s.ne none).h 0 (.fin 0 s.ne)
      have r5 : Reach sd true s5 := .step r4 (.reset 0 0 s.ne none (h_at ..))
      let s6 := (s5.setCache n (s.ne :: s.cache n)).h 0 .off
      have r6 : Reach sd true s6 := .step r5 (.store 0 n s.ne (h_at ..) (by show (s.cache n).length < 8; rw [h6]; decide))
      let s7 := s6.setCache n []
      have r7 : Reach sd true s7 := .step r6 (.exit n)
      have el : s7.lst 0 = s.ne :: s.lst 0 := upd_same s.lst 0 (s.ne :: s.lst 0)
      refine ⟨s7, r7, ?_, ?_, ?_, ?_, ?_⟩
      · rw [el, List.length_cons, h2]
      · rw [el, List.nodup_cons]
        exact ⟨fun hm => by have := (h4 _ hm).2; omega, h3⟩
      · intro e he
        rw [el] at he
        show upd s.act s.ne true e = true ∧ e < s.ne + 1
        rcases List.mem_cons.1 he with rfl | he
        · exact ⟨upd_same .., by omega⟩
        · have := (h4 e he).2
          rw [upd_ne _ _ (by omega)]
          exact ⟨(h4 e he).1, by omega⟩
      · intro i
        show upd (upd (upd (upd (upd (upd s.hz 0 _) 0 _) 0 _) 0 _) 0 _) 0 .off i = .off
        by_cases hi : i = 0
        · subst hi; exact upd_same ..
        · rw [upd_ne _ _ hi, upd_ne _ _ hi, upd_ne _ _ hi, upd_ne _ _ hi, upd_ne _ _ hi, upd_ne _ _ hi]; exact h5 i
      · intro t
        show upd (upd s.cache n _) n [] t = []
        by_cases ht : t = n
        · subst ht; exact upd_same ..
        · rw [upd_ne _ _ ht, upd_ne _ _ ht]; exact h6 t
  obtain ⟨s, h1, h2, h3, h4, h5, h6⟩ := key
  refine ⟨s, h1, h2, h3, fun e he => ⟨(h4 e he).1, (h4 e he).2, fun i => ?_, fun t => ?_⟩⟩
  · rw [h5 i]; nofun
  · rw [h6 t]; nofun

theorem leaked_upd {hz : Nat → H} {e : Nat} (h : ∀ i, (hz i).ent ≠ some e) (i : Nat) (x : H) (hx : x.ent ≠ some e) : ∀ j, (upd hz i x j).ent ≠ some e := by
  intro j
  rw [upd_apply]
  split
  · exact hx
  · exact h j

theorem cache_upd {cache : Nat → List Nat} {e : Nat} (h : ∀ t, e ∉ cache t) (t : Nat) (l : List Nat) (hl : e ∉ l) : ∀ t', e ∉ upd cache t l t' := by
  intro j
  rw [upd_apply]
  split
  · exact hl
  · exact h j

theorem leaked_step {sd : Nat → Nat} {b : Bool} {s t : S} {e : Nat} (h : s.leaked e) (hs : Step sd b s t) : t.leaked e := by
  obtain ⟨h1, h2, h3, h4⟩ := h
  have same : ∀ i x, x.ent = (s.hz i).ent → ∀ j, (upd s.hz i x j).ent ≠ some e := fun i x hx => leaked_upd h3 i x (by rw [hx]; exact h3 i)
  cases hs with
  | cached i t e' l h hc =>
    refine ⟨h1, h2, leaked_upd h3 i _ ?_, cache_upd h4 t l fun hm => h4 t (by rw [hc]; exact List.mem_cons_of_mem _ hm)⟩
    intro he
    cases he
    exact h4 t (by rw [hc]; exact List.mem_cons_self)
  | won i d e' l h ha =>
    have hne : e' ≠ e := by rintro rfl; rw [h1] at ha; cases ha
    refine ⟨?_, h2, leaked_upd h3 i _ fun he => by cases he; exact hne rfl, h4⟩
    show upd s.act e' true e = true
    rw [upd_ne _ _ (Ne.symm hne)]
    exact h1
  | make i d h =>
    refine ⟨?_, by show e < s.ne + 1; omega, leaked_upd h3 i _ fun he => by cases he; omega, h4⟩
    show upd s.act s.ne true e = true
    rw [upd_ne _ _ (by omega)]
    exact h1
  | store i t e' h hr =>
    refine ⟨h1, h2, leaked_upd h3 i _ nofun, cache_upd h4 t _ fun hm => ?_⟩
    rcases List.mem_cons.1 hm with rfl | hm
    · exact h3 i (by rw [h]; rfl)
    · exact h4 t hm
  | release i d e' h =>
    have hne : e' ≠ e := by rintro rfl; exact h3 i (by rw [h]; rfl)
    refine ⟨?_, h2, leaked_upd h3 i _ nofun, h4⟩
    show upd s.act e' false e = true
    rw [upd_ne _ _ (Ne.symm hne)]
    exact h1
  | move i j d e' p h hj => exact ⟨h1, h2, leaked_upd (leaked_upd h3 i .off nofun) j _ fun he => h3 i (by rw [h]; exact he), h4⟩
  | assign i j d d' e' p h hj hs => exact ⟨h1, h2, leaked_upd (leaked_upd h3 i .off nofun) j _ fun he => h3 i (by rw [h]; exact he), h4⟩
  | exit t => exact ⟨h1, h2, h3, cache_upd h4 t _ nofun⟩
  | new i d h => exact ⟨h1, h2, leaked_upd h3 i _ nofun, h4⟩
  | busy i d e' l h ha => exact ⟨h1, h2, leaked_upd h3 i _ nofun, h4⟩
  | idle i d e' l h ha => exact ⟨h1, h2, leaked_upd h3 i _ nofun, h4⟩
  | lost i d e' l h ha => exact ⟨h1, h2, leaked_upd h3 i _ nofun, h4⟩
  | link i d e' h => exact ⟨h1, h2, same i _ (by rw [h]; rfl), h4⟩
  | relink i d e' o h => exact ⟨h1, h2, same i _ (by rw [h]; rfl), h4⟩
  | keep i d e' c p h hd => exact ⟨h1, h2, same i _ (by rw [h]; rfl), h4⟩
  | «try» i d e' c p q h hd => exact ⟨h1, h2, same i _ (by rw [h]; rfl), h4⟩
  | load i d e' c h => exact ⟨h1, h2, same i _ (by rw [h]; rfl), h4⟩
  | expose i d e' c p h => exact ⟨h1, h2, same i _ (by rw [h]; rfl), h4⟩
  | kept i d e' c p h hp => exact ⟨h1, h2, same i _ (by rw [h]; rfl), h4⟩
  | differs i d e' c p h hp => exact ⟨h1, h2, same i _ (by rw [h]; rfl), h4⟩
  | again i d e' c q h => exact ⟨h1, h2, same i _ (by rw [h]; rfl), h4⟩
  | failed i d e' c q h => exact ⟨h1, h2, same i _ (by rw [h]; rfl), h4⟩
  | clear i d e' p h => exact ⟨h1, h2, same i _ (by rw [h]; rfl), h4⟩
  | reset i d e' p h => exact ⟨h1, h2, same i _ (by rw [h]; rfl), h4⟩
  | _ => exact ⟨h1, h2, h3, h4⟩

/-- Such an entry is never used again. -/
theorem C137_forever_partial {sd : Nat → Nat} {b : Bool} {s t : S} {e : Nat} (h : s.leaked e) (hs : Steps sd b s t) : t.leaked e := by
  induction hs with
  | refl => exact h
  | head h' _ ih => exact ih (leaked_step h h')

/-- After a `Hazptr` of the default domain was assigned from one of another domain and destroyed, the next `Hazptr` of that thread, which has nothing to do with them, does not protect what it keeps. -/
theorem C137_assign_partial : ∃ s, Reach (fun _ => 0) false s ∧ s.bad = true := by
  have r1 := Reach.step (Reach.init (sd := fun _ => 0) (strict := false)) (.new 0 1 rfl)
  have r2 := r1.step (.make 0 1 rfl)
  have r3 := r2.step (.link 0 1 0 rfl)
  have r4 := r3.step (.assign 0 1 1 0 0 none rfl rfl nofun)
  have r5 := r4.step (.reset 1 0 0 none rfl)
  have r6 := r5.step (.store 1 0 0 rfl (by decide))
  have r7 := r6.step (.cached 2 0 0 [] rfl rfl)
  have r8 := r7.step (.alloc 7 0 rfl)
  have r9 := r8.step (.set 0 7 rfl rfl)
  have r10 := r9.step (.keep 2 0 0 0 none rfl rfl)
  have r11 := r10.step (.load 2 0 0 0 rfl)
  have r12 := r11.step (.expose 2 0 0 0 (some 7) rfl)
  have r13 := r12.step (.kept 2 0 0 0 (some 7) rfl rfl)
  have r14 := r13.step (.unset 0)
  have r15 := r14.step (.retire 0 7 rfl rfl (by
    intro c hc
    have hc' : upd (upd (fun _ => (none : Option Nat)) 0 (some 7)) 0 none c = some 7 := hc
    rw [upd_apply, upd_apply] at hc'
    split at hc' <;> cases hc'))
  have r16 := r15.step (.pushed 0 0 7 .retire rfl)
  have r17 := r16.step (.count 0 0 rfl)
  have r18 := r17.step (.take 0 0 rfl)
  have r19 := r18.step (.scan 0 0 [7] rfl)
  have r20 := r19.step (.scanned 0 0 [7] [] rfl)
  have r21 := r20.step (.destroy 0 0 7 [] [] rfl nofun)
  exact ⟨_, r21.step (.use 2 0 0 7 rfl), rfl⟩

/-! ## The theorems say something -/

/-- A `Hazptr` keeps an object that is retired, and the object is put back into the list. -/
example : ∃ s, Reach (fun _ => 0) true s ∧ s.hz 0 = .has 0 0 (some 7) ∧ s.obj 7 = .retired ∧ s.ret 0 = [7] ∧ s.wk 0 = .sweep 0 [] [7] := by
  have r1 := Reach.step (Reach.init (sd := fun _ => 0) (strict := true)) (.new 0 0 rfl)
  have r2 := r1.step (.make 0 0 rfl)
  have r3 := r2.step (.link 0 0 0 rfl)
  have r8 := r3.step (.alloc 7 0 rfl)
  have r9 := r8.step (.set 0 7 rfl rfl)
  have r10 := r9.step (.keep 0 0 0 0 none rfl rfl)
  have r11 := r10.step (.load 0 0 0 0 rfl)
  have r12 := r11.step (.expose 0 0 0 0 (some 7) rfl)
  have r13 := r12.step (.kept 0 0 0 0 (some 7) rfl rfl)
  have r14 := r13.step (.unset 0)
  have r15 := r14.step (.retire 0 7 rfl rfl (by
    intro c hc
    have hc' : upd (upd (fun _ => (none : Option Nat)) 0 (some 7)) 0 none c = some 7 := hc
    rw [upd_apply, upd_apply] at hc'
    split at hc' <;> cases hc'))
  have r16 := r15.step (.pushed 0 0 7 .retire rfl)
  have r17 := r16.step (.count 0 0 rfl)
  have r18 := r17.step (.take 0 0 rfl)
  have r19 := r18.step (.scan 0 0 [7] rfl)
  have r20 := r19.step (.look 0 0 0 [7] [] [] rfl rfl)
  have r21 := r20.step (.seen 0 0 0 [7] [] [] rfl)
  have r22 := r21.step (.scanned 0 0 [7] [7] rfl)
  have r23 := r22.step (.spare 0 0 7 [] [7] rfl (by decide))
  exact ⟨_, r23.step (.pushed 0 0 7 _ rfl), rfl, rfl, rfl, rfl⟩

end Verif.Sync.Hazptr
