import Verif.Sync.HashMapProps

/-!
# The theorems on the concurrent hash map
-/

namespace Verif.Sync.HashMap

/-! ## What operations return -/

/-- `Get` returns what was right at some moment since it was called. -/
theorem C138_get {bi mi mb : Nat → Nat} {nb : Nat} {gc cl : Bool} (hm : ∀ k, mi k = mb (bi k)) {s : S} (h : Reach bi mi mb nb gc cl s) (t : Nat) (r : Option Nat) (hr : s.th t = .gret r) : r ∈ s.seen t :=
  (h.inv hm).elim fun _ hI => HashMap.I.gret hI t r hr

/-- The other operations return what the map at the moment of their effect gives. -/
theorem C138_write {bi mi mb : Nat → Nat} {nb : Nat} {gc cl : Bool} (hm : ∀ k, mi k = mb (bi k)) {s : S} (h : Reach bi mi mb nb gc cl s) (t : Nat) (r : Res) (hr : s.th t = .ret r) : r = s.ex t :=
  (h.inv hm).elim fun _ hI => (HashMap.I.wres hI t r (by rw [hr]; rfl)).symm

/-- In memory is the map, with each key once, in the list of its bucket. -/
theorem C138_content {bi mi mb : Nat → Nat} {nb : Nat} {gc cl : Bool} (hm : ∀ k, mi k = mb (bi k)) {s : S} (h : Reach bi mi mb nb gc cl s) (b : Nat) :
    ∃ l, Path s.nx (s.hd b) l ∧ (l.map s.ky).Nodup ∧ ∀ k v, bi k = b → (s.m k = some v ↔ ∃ n ∈ l, s.ky n = k ∧ s.vl n = v) := by
  obtain ⟨L, hI⟩ := h.inv hm
  have hM : M bi L s.hd s.nx s.ky s.vl s.nn s.rt s.m := HashMap.I.mem hI
  refine ⟨L b, hM.path b, hM.keys b, fun k v hb => ⟨fun hv => ?_, ?_⟩⟩
  · obtain ⟨a, ha, hk⟩ := hM.full k (by rw [hv]; nofun)
    refine ⟨a, by rw [← hb]; exact ha, hk, ?_⟩
    have := (hM.inb _ a ha).2.2
    rw [hk, hv] at this
    cases this
    rfl
  · rintro ⟨n, hn, rfl, rfl⟩
    exact (hM.inb b n hn).2.2

/-! ## Memory -/

/-- Only retired nodes are destroyed. -/
theorem Reach.freed {bi mi mb : Nat → Nat} {nb : Nat} {gc cl : Bool} {s : S} (h : Reach bi mi mb nb gc cl s) : ∀ n, s.fr n = true → s.rt n = true := by
  induction h with
  | init => exact fun _ h => by cases h
  | @step s s' _ hs ih =>
    cases hs with
    | erase t k v pos n hd h0 hk =>
      intro a ha
      have ha' : s.fr a = true := by cases pos <;> exact ha
      have : upd s.rt n true a = true := by
        rw [upd_apply]
        split
        · rfl
        · exact ih a ha'
      cases pos <;> exact this
    | assign t k v pos n hd h0 hk =>
      intro a ha
      have ha' : s.fr a = true := by cases pos <;> exact ha
      have : upd s.rt n true a = true := by
        rw [upd_apply]
        split
        · rfl
        · exact ih a ha'
      cases pos <;> exact this
    | wipe t i h0 =>
      intro a ha
      show (s.rt a || _) = true
      rw [ih a ha]
      rfl
    | reclaim n hg hr hz =>
      intro a ha
      have ha' : upd s.fr n true a = true := ha
      rw [upd_apply] at ha'
      split at ha'
      · rename_i e
        rw [e]
        exact hr
      · exact ih a ha'
    | _ => exact ih

/-- A writer is never at a node that was retired, so it does not use a destroyed one, and retires none twice. -/
theorem C138_writers {bi mi mb : Nat → Nat} {nb : Nat} {gc cl : Bool} (hm : ∀ k, mi k = mb (bi k)) {s : S} (h : Reach bi mi mb nb gc cl s) (t : Nat) (o : Op) (k v : Nat) (pos hd : Option Nat) (n : Nat)
    (hh : s.th t = .hold o k v pos (some n) hd) : s.rt n = false ∧ s.fr n = false := by
  obtain ⟨L, hI⟩ := h.inv hm
  have hM : M bi L s.hd s.nx s.ky s.vl s.nn s.rt s.m := HashMap.I.mem hI
  obtain ⟨l1, l2, h1, _⟩ := (HashMap.I.hold hI _ _ _ _ _ _ _ hh).found
  have hr := hM.alive (bi k) n (by rw [h1]; exact List.mem_append_right _ List.mem_cons_self)
  refine ⟨hr, ?_⟩
  cases hf : s.fr n with
  | false => rfl
  | true => rw [h.freed n hf] at hr; cases hr

/-- Without two keys in a bucket, a `Get` is at a node only while its `Hazptr` points to it. -/
structure X (s : S) : Prop where
  get : ∀ t k src, s.th t = .get k src → src = none
  got : ∀ t k src p, s.th t = .got k src p → src = none
  exp : ∀ t k src p, s.th t = .exposed k src p → src = none ∧ s.hz t = p
  cmp : ∀ t k n, s.th t = .cmp k (some n) → s.hz t = some n ∧ s.ky n = k ∧ n < s.nn ∧ s.fr n = false
  good : s.bad = false

theorem X.thread {s s' : S} (h : X s) (t : Nat) (x : T) (hth : s'.th = upd s.th t x) (hhz : ∀ t', t' ≠ t → s'.hz t' = s.hz t') (hky : ∀ n, n < s.nn → s'.ky n = s.ky n) (hnn : s.nn ≤ s'.nn) (hfr : s'.fr = s.fr) (hb : s'.bad = false)
    (h1 : ∀ k src, x = .get k src → src = none) (h2 : ∀ k src p, x = .got k src p → src = none) (h3 : ∀ k src p, x = .exposed k src p → src = none ∧ s'.hz t = p)
    (h4 : ∀ k n, x = .cmp k (some n) → s'.hz t = some n ∧ s'.ky n = k ∧ n < s'.nn ∧ s'.fr n = false) : X s' := by
  refine ⟨?_, ?_, ?_, ?_, hb⟩
  · intro t' k src e
    rw [hth] at e
    by_cases ht : t' = t
    · subst ht; rw [upd_same] at e; exact h1 _ _ e
    · rw [upd_ne _ _ ht] at e; exact h.get _ _ _ e
  · intro t' k src p e
    rw [hth] at e
    by_cases ht : t' = t
    · subst ht; rw [upd_same] at e; exact h2 _ _ _ e
    · rw [upd_ne _ _ ht] at e; exact h.got _ _ _ _ e
  · intro t' k src p e
    rw [hth] at e
    by_cases ht : t' = t
    · subst ht; rw [upd_same] at e; exact h3 _ _ _ e
    · rw [upd_ne _ _ ht] at e; rw [hhz t' ht]; exact h.exp _ _ _ _ e
  · intro t' k n e
    rw [hth] at e
    by_cases ht : t' = t
    · subst ht; rw [upd_same] at e; exact h4 _ _ e
    · rw [upd_ne _ _ ht] at e
      obtain ⟨g1, g2, g3, g4⟩ := h.cmp _ _ _ e
      rw [hhz t' ht, hfr, hky n g3]
      exact ⟨g1, g2, Nat.lt_of_lt_of_le g3 hnn, g4⟩

theorem X.step {bi mi mb : Nat → Nat} {nb : Nat} {gc cl : Bool} (hm : ∀ k, mi k = mb (bi k)) (hi : ∀ k k', bi k = bi k' → k = k') {s s' : S} (hr : Reach bi mi mb nb gc cl s) (h : X s) (hs : Step bi mi mb nb gc cl s s') : X s' := by
  have hg := h.good
  have wr := fun t o k v pos hd n => C138_writers hm hr t o k v pos hd n
  cases hs with
  | call t o k v h0 => exact h.thread t (.want o k v) rfl (fun _ _ => rfl) (fun _ _ => rfl) (Nat.le_refl _) rfl hg nofun nofun nofun nofun
  | lock t o k v h0 hl => exact h.thread t (.hold o k v none (s.hd (bi k)) (s.hd (bi k))) rfl (fun _ _ => rfl) (fun _ _ => rfl) (Nat.le_refl _) rfl hg nofun nofun nofun nofun
  | next t o k v pos n hd h0 hk =>
    refine h.thread t (.hold o k v (some n) (s.nx n) hd) rfl (fun _ _ => rfl) (fun _ _ => rfl) (Nat.le_refl _) rfl ?_ nofun nofun nofun nofun
    show (s.bad || s.fr n) = false
    rw [hg, (wr _ _ _ _ _ _ _ h0).2]
    rfl
  | has t k v pos n hd h0 hk =>
    refine h.thread t (.unl k (false, none)) rfl (fun _ _ => rfl) (fun _ _ => rfl) (Nat.le_refl _) rfl ?_ nofun nofun nofun nofun
    show (s.bad || s.fr n) = false
    rw [hg, (wr _ _ _ _ _ _ _ h0).2]
    rfl
  | hasV t k v pos n hd h0 hk =>
    refine h.thread t (.unl k (true, some (s.vl n))) rfl (fun _ _ => rfl) (fun _ _ => rfl) (Nat.le_refl _) rfl ?_ nofun nofun nofun nofun
    show (s.bad || s.fr n) = false
    rw [hg, (wr _ _ _ _ _ _ _ h0).2]
    rfl
  | erase t k v pos n hd h0 hk =>
    have hb : (s.bad || s.fr n) = false := by rw [hg, (wr _ _ _ _ _ _ _ h0).2]; rfl
    cases pos <;> exact h.thread t (.count k (true, none) (-1)) rfl (fun _ _ => rfl) (fun _ _ => rfl) (Nat.le_refl _) rfl hb nofun nofun nofun nofun
  | assign t k v pos n hd h0 hk =>
    have hb : (s.bad || s.fr n) = false := by rw [hg, (wr _ _ _ _ _ _ _ h0).2]; rfl
    cases pos <;> exact h.thread t (.unl k (false, none)) rfl (fun _ _ => rfl) (fun a ha => upd_ne _ _ (by have : a < s.nn := ha; show a ≠ s.nn; omega)) (Nat.le_succ _) rfl hb nofun nofun nofun nofun
  | absent t k v pos hd h0 => exact h.thread t (.unl k (false, none)) rfl (fun _ _ => rfl) (fun _ _ => rfl) (Nat.le_refl _) rfl hg nofun nofun nofun nofun
  | link t o k v pos hd h0 ho =>
    exact h.thread t (.count k (newRes o) 1) rfl (fun _ _ => rfl) (fun a ha => upd_ne _ _ (by have : a < s.nn := ha; show a ≠ s.nn; omega)) (Nat.le_succ _) rfl hg nofun nofun nofun nofun
  | count t k r d h0 => exact h.thread t (.unl k r) rfl (fun _ _ => rfl) (fun _ _ => rfl) (Nat.le_refl _) rfl hg nofun nofun nofun nofun
  | unlock t k r h0 => exact h.thread t (.ret r) rfl (fun _ _ => rfl) (fun _ _ => rfl) (Nat.le_refl _) rfl hg nofun nofun nofun nofun
  | done t r h0 => exact h.thread t .idle rfl (fun _ _ => rfl) (fun _ _ => rfl) (Nat.le_refl _) rfl hg nofun nofun nofun nofun
  | get t k h0 => exact h.thread t (.get k none) rfl (fun _ _ => rfl) (fun _ _ => rfl) (Nat.le_refl _) rfl hg (fun _ _ e => by cases e; rfl) nofun nofun nofun
  | load t k src h0 =>
    have e := h.get _ _ _ h0
    subst e
    exact h.thread t (.got k none (s.loc (bi k) none)) rfl (fun _ _ => rfl) (fun _ _ => rfl) (Nat.le_refl _) rfl (by show (s.bad || false) = false; rw [hg]; rfl) nofun (fun _ _ _ e => by cases e; rfl) nofun nofun
  | expose t k src p h0 =>
    have e := h.got _ _ _ _ h0
    subst e
    exact h.thread t (.exposed k none p) rfl (fun t' ht => upd_ne _ _ ht) (fun _ _ => rfl) (Nat.le_refl _) rfl hg nofun nofun (fun _ _ _ e => by cases e; exact ⟨rfl, upd_same ..⟩) nofun
  | same t k src p h0 hp =>
    obtain ⟨e, hz⟩ := h.exp _ _ _ _ h0
    subst e
    refine h.thread t (.cmp k p) rfl (fun _ _ => rfl) (fun _ _ => rfl) (Nat.le_refl _) rfl (by show (s.bad || false) = false; rw [hg]; rfl) nofun nofun nofun (fun k' n e => ?_)
    cases e
    obtain ⟨L, hI⟩ := hr.inv hm
    have hM : M bi L s.hd s.nx s.ky s.vl s.nn s.rt s.m := HashMap.I.mem hI
    have hn : n ∈ L (bi k) := by
      have := hM.path (bi k)
      have hp' : s.hd (bi k) = some n := hp
      rw [hp'] at this
      generalize L (bi k) = l at this
      cases this
      exact List.mem_cons_self
    have hb := hM.inb _ n hn
    refine ⟨hz, hi _ _ hb.2.1, hb.1, ?_⟩
    show s.fr n = false
    cases hf : s.fr n with
    | false => rfl
    | true =>
      have h1 := hr.freed n hf
      rw [hM.alive _ n hn] at h1
      cases h1
  | differs t k src p h0 hp =>
    obtain ⟨e, hz⟩ := h.exp _ _ _ _ h0
    subst e
    exact h.thread t (.got k none (s.loc (bi k) none)) rfl (fun t' ht => upd_ne _ _ ht) (fun _ _ => rfl) (Nat.le_refl _) rfl (by show (s.bad || false) = false; rw [hg]; rfl) nofun (fun _ _ _ e => by cases e; rfl) nofun nofun
  | nil t k h0 => exact h.thread t (.gret none) rfl (fun t' ht => upd_ne _ _ ht) (fun _ _ => rfl) (Nat.le_refl _) rfl hg nofun nofun nofun nofun
  | hit t k n h0 hk =>
    exact h.thread t (.gret (some (s.vl n))) rfl (fun t' ht => upd_ne _ _ ht) (fun _ _ => rfl) (Nat.le_refl _) rfl (by show (s.bad || s.fr n) = false; rw [hg, (h.cmp _ _ _ h0).2.2.2]; rfl) nofun nofun nofun nofun
  | pass t k n h0 hk => exact absurd (h.cmp _ _ _ h0).2.1 hk
  | gdone t r h0 => exact h.thread t .idle rfl (fun _ _ => rfl) (fun _ _ => rfl) (Nat.le_refl _) rfl hg nofun nofun nofun nofun
  | clear t h0 hc => exact h.thread t (.clk 0) rfl (fun _ _ => rfl) (fun _ _ => rfl) (Nat.le_refl _) rfl hg nofun nofun nofun nofun
  | clock t i h0 hi hl => exact h.thread t (.clr i) rfl (fun _ _ => rfl) (fun _ _ => rfl) (Nat.le_refl _) rfl hg nofun nofun nofun nofun
  | wipe t i h0 => exact h.thread t (.clu i) rfl (fun _ _ => rfl) (fun _ _ => rfl) (Nat.le_refl _) rfl hg nofun nofun nofun nofun
  | cunlock t i h0 => exact h.thread t (.clk (i + 1)) rfl (fun _ _ => rfl) (fun _ _ => rfl) (Nat.le_refl _) rfl hg nofun nofun nofun nofun
  | cend t i h0 hi => exact h.thread t .clz rfl (fun _ _ => rfl) (fun _ _ => rfl) (Nat.le_refl _) rfl hg nofun nofun nofun nofun
  | zero t h0 => exact h.thread t .idle rfl (fun _ _ => rfl) (fun _ _ => rfl) (Nat.le_refl _) rfl hg nofun nofun nofun nofun
  | reclaim n hg' hr' hz =>
    refine ⟨h.get, h.got, h.exp, ?_, hg⟩
    intro t k a e
    obtain ⟨g1, g2, g3, g4⟩ := h.cmp t k a e
    refine ⟨g1, g2, g3, ?_⟩
    show upd s.fr n true a = false
    rw [upd_ne _ _ (by rintro rfl; exact hz t g1)]
    exact g4

/-- If no two keys have one bucket, no destroyed node is used. -/
theorem C138_single {bi mi mb : Nat → Nat} {nb : Nat} {gc cl : Bool} (hm : ∀ k, mi k = mb (bi k)) (hi : ∀ k k', bi k = bi k' → k = k') {s : S} (h : Reach bi mi mb nb gc cl s) : s.bad = false := by
  have : X s := by
    induction h with
    | init => exact ⟨nofun, nofun, nofun, nofun, rfl⟩
    | step h hs ih => exact X.step hm hi h ih hs
  exact this.good

/-! ## Size -/

def T.clearing : T → Bool
  | .clk _ => true
  | .clr _ => true
  | .clu _ => true
  | .clz => true
  | _ => false

/-- What a thread has yet to add to `item_num_`. -/
def T.owes : T → Int
  | .count _ _ d => d
  | _ => 0

/-- The keys; the threads that have yet to add and to subtract one. -/
structure Z (th : Nat → T) (m : Nat → Option Nat) (cnt : Int) (D P N : List Nat) : Prop where
  nd : D.Nodup
  keys : ∀ k, k ∈ D ↔ m k ≠ none
  pn : P.Nodup
  plus : ∀ t, t ∈ P ↔ (th t).owes = 1
  nn : N.Nodup
  minus : ∀ t, t ∈ N ↔ (th t).owes = -1
  sum : cnt + P.length = D.length + N.length
  nocl : ∀ t, (th t).clearing = false

theorem Z.thread {th : Nat → T} {m : Nat → Option Nat} {cnt : Int} {D P N : List Nat} (h : Z th m cnt D P N) (t : Nat) (x : T) (h1 : x.owes = (th t).owes) (h2 : x.clearing = false) : Z (upd th t x) m cnt D P N := by
  have e : ∀ t', (upd th t x t').owes = (th t').owes := fun t' => by
    rw [upd_apply]
    split
    · rename_i e; rw [e, h1]
    · rfl
  refine ⟨h.nd, h.keys, h.pn, fun t' => by rw [e]; exact h.plus t', h.nn, fun t' => by rw [e]; exact h.minus t', h.sum, fun t' => ?_⟩
  rw [upd_apply]
  split
  · exact h2
  · exact h.nocl t'

theorem Reach.owes {bi mi mb : Nat → Nat} {nb : Nat} {gc cl : Bool} {s : S} (h : Reach bi mi mb nb gc cl s) : ∀ t k r d, s.th t = .count k r d → d = 1 ∨ d = -1 := by
  have key : ∀ {th : Nat → T} (t : Nat) (x : T), (∀ t k r d, th t = .count k r d → d = 1 ∨ d = -1) → (∀ k r d, x = .count k r d → d = 1 ∨ d = -1) → ∀ t' k r d, upd th t x t' = .count k r d → d = 1 ∨ d = -1 := by
    intro th t x h hx t' k r d e
    rw [upd_apply] at e
    split at e
    · exact hx _ _ _ e
    · exact h _ _ _ _ e
  induction h with
  | init => exact nofun
  | step _ hs ih =>
    cases hs with
    | erase t k v pos n hd h0 hk => cases pos <;> exact key t _ ih fun _ _ _ e => by cases e; exact .inr rfl
    | assign t k v pos n hd h0 hk => cases pos <;> exact key t _ ih nofun
    | link t o k v pos hd h0 ho => exact key t _ ih fun _ _ _ e => by cases e; exact .inl rfl
    | reclaim n hg hr hz => exact ih
    | _ => exact key _ _ ih nofun

theorem Z.step {bi mi mb : Nat → Nat} {nb : Nat} {gc : Bool} (hm : ∀ k, mi k = mb (bi k)) {s s' : S} (hr : Reach bi mi mb nb gc false s) {D P N : List Nat} (h : Z s.th s.m s.cnt D P N) (hs : Step bi mi mb nb gc false s s') :
    ∃ D' P' N', Z s'.th s'.m s'.cnt D' P' N' := by
  obtain ⟨L, hI⟩ := hr.inv hm
  have hM : M bi L s.hd s.nx s.ky s.vl s.nn s.rt s.m := HashMap.I.mem hI
  cases hs with
  | call t o k v h0 => exact ⟨D, P, N, h.thread t _ (by rw [h0]; rfl) rfl⟩
  | lock t o k v h0 hl => exact ⟨D, P, N, h.thread t _ (by rw [h0]; rfl) rfl⟩
  | next t o k v pos n hd h0 hk => exact ⟨D, P, N, h.thread t _ (by rw [h0]; rfl) rfl⟩
  | has t k v pos n hd h0 hk =>
    have hv := HD.value hM (HashMap.I.hold hI _ _ _ _ _ _ _ h0) hk
    have e1 : upd s.m k (spec .ins v (s.m k)).1 = s.m := upd_eq _ _ (by rw [hv]; rfl)
    refine ⟨D, P, N, ?_⟩
    show Z (upd s.th t _) (upd s.m k (spec .ins v (s.m k)).1) s.cnt D P N
    rw [e1]
    exact h.thread t _ (by rw [h0]; rfl) rfl
  | hasV t k v pos n hd h0 hk =>
    have hv := HD.value hM (HashMap.I.hold hI _ _ _ _ _ _ _ h0) hk
    have e1 : upd s.m k (spec .gos v (s.m k)).1 = s.m := upd_eq _ _ (by rw [hv]; rfl)
    refine ⟨D, P, N, ?_⟩
    show Z (upd s.th t _) (upd s.m k (spec .gos v (s.m k)).1) s.cnt D P N
    rw [e1]
    exact h.thread t _ (by rw [h0]; rfl) rfl
  | absent t k v pos hd h0 =>
    have hv := HD.absent hM (HashMap.I.hold hI _ _ _ _ _ _ _ h0)
    have e1 : upd s.m k (spec .era v (s.m k)).1 = s.m := upd_eq _ _ (by rw [hv]; rfl)
    refine ⟨D, P, N, ?_⟩
    show Z (upd s.th t _) (upd s.m k (spec .era v (s.m k)).1) s.cnt D P N
    rw [e1]
    exact h.thread t _ (by rw [h0]; rfl) rfl
  | assign t k v pos n hd h0 hk =>
    have hv := HD.value hM (HashMap.I.hold hI _ _ _ _ _ _ _ h0) hk
    have e1 : (spec .asg v (s.m k)).1 = some v := by rw [hv]; rfl
    have hZ : Z (upd s.th t (.unl k (false, none))) (upd s.m k (spec .asg v (s.m k)).1) s.cnt D P N := by
      have := h.thread t (.unl k (false, none)) (by rw [h0]; rfl) rfl
      refine ⟨this.nd, fun k' => ?_, this.pn, this.plus, this.nn, this.minus, this.sum, this.nocl⟩
      rw [this.keys k', e1, upd_apply]
      split
      · rename_i e
        rw [e, hv]
        simp
      · rfl
    refine ⟨D, P, N, ?_⟩
    cases pos <;> exact hZ
  | erase t k v pos n hd h0 hk =>
    have hv := HD.value hM (HashMap.I.hold hI _ _ _ _ _ _ _ h0) hk
    have e1 : (spec .era v (s.m k)).1 = none := by rw [hv]; rfl
    have hkD : k ∈ D := (h.keys k).2 (by rw [hv]; nofun)
    have htP : t ∉ P := fun hm => by have := (h.plus t).1 hm; rw [h0] at this; cases this
    have htN : t ∉ N := fun hm => by have := (h.minus t).1 hm; rw [h0] at this; cases this
    have hZ : Z (upd s.th t (.count k (true, none) (-1))) (upd s.m k (spec .era v (s.m k)).1) s.cnt (D.erase k) P (t :: N) := by
      refine ⟨h.nd.erase k, fun k' => ?_, h.pn, fun t' => ?_, List.nodup_cons.2 ⟨htN, h.nn⟩, fun t' => ?_, ?_, fun t' => ?_⟩
      · rw [h.nd.mem_erase_iff, e1, upd_apply, h.keys]
        split
        · rename_i e; simp [e]
        · rename_i e; simp [e]
      · rw [upd_apply]
        split
        · rename_i e
          subst e
          exact ⟨fun hm => absurd hm htP, fun e => by cases e⟩
        · exact h.plus t'
      · rw [upd_apply, List.mem_cons]
        split
        · rename_i e
          exact ⟨fun _ => rfl, fun _ => .inl e⟩
        · rename_i e
          rw [← h.minus t']
          exact ⟨fun hm => hm.resolve_left e, .inr⟩
      · have h1 := h.sum
        have h2 := List.length_erase_of_mem hkD
        have h3 : 0 < D.length := List.length_pos_of_mem hkD
        rw [h2, List.length_cons]
        omega
      · rw [upd_apply]
        split
        · rfl
        · exact h.nocl t'
    refine ⟨D.erase k, P, t :: N, ?_⟩
    cases pos <;> exact hZ
  | link t o k v pos hd h0 ho =>
    have hv := HD.absent hM (HashMap.I.hold hI _ _ _ _ _ _ _ h0)
    have e1 : (spec o v (s.m k)).1 = some v := by rw [hv]; cases o <;> first | rfl | exact absurd rfl ho
    have hkD : k ∉ D := fun hm => (h.keys k).1 hm hv
    have htP : t ∉ P := fun hm => by have := (h.plus t).1 hm; rw [h0] at this; cases this
    have htN : t ∉ N := fun hm => by have := (h.minus t).1 hm; rw [h0] at this; cases this
    refine ⟨k :: D, t :: P, N, ?_⟩
    show Z (upd s.th t (.count k (newRes o) 1)) (upd s.m k (spec o v (s.m k)).1) s.cnt (k :: D) (t :: P) N
    refine ⟨List.nodup_cons.2 ⟨hkD, h.nd⟩, fun k' => ?_, List.nodup_cons.2 ⟨htP, h.pn⟩, fun t' => ?_, h.nn, fun t' => ?_, ?_, fun t' => ?_⟩
    · rw [List.mem_cons, e1, upd_apply, h.keys]
      split
      · rename_i e; simp [e]
      · rename_i e; simp [e]
    · rw [upd_apply, List.mem_cons]
      split
      · rename_i e
        exact ⟨fun _ => rfl, fun _ => .inl e⟩
      · rename_i e
        rw [← h.plus t']
        exact ⟨fun hm => hm.resolve_left e, .inr⟩
    · rw [upd_apply]
      split
      · rename_i e
        subst e
        exact ⟨fun hm => absurd hm htN, fun e => by cases e⟩
      · exact h.minus t'
    · have h1 := h.sum
      rw [List.length_cons, List.length_cons]
      omega
    · rw [upd_apply]
      split
      · rfl
      · exact h.nocl t'
  | count t k r d h0 =>
    have ho : (s.th t).owes = d := by rw [h0]; rfl
    have hx : (upd s.th t (.unl k r) t).owes = 0 := by rw [upd_same]; rfl
    have oth : ∀ t', t' ≠ t → (upd s.th t (.unl k r) t').owes = (s.th t').owes := fun t' ht => by rw [upd_ne _ _ ht]
    have ncl : ∀ t', (upd s.th t (.unl k r) t').clearing = false := fun t' => by
      rw [upd_apply]
      split
      · rfl
      · exact h.nocl t'
    by_cases d1 : d = 1
    · have htP : t ∈ P := (h.plus t).2 (ho.trans d1)
      refine ⟨D, P.erase t, N, h.nd, h.keys, h.pn.erase t, fun t' => ?_, h.nn, fun t' => ?_, ?_, ncl⟩
      · show _ ↔ (upd s.th t (.unl k r) t').owes = 1
        rw [h.pn.mem_erase_iff]
        by_cases ht : t' = t
        · subst ht; rw [hx]; simp
        · rw [oth t' ht, ← h.plus t']; simp [ht]
      · show _ ↔ (upd s.th t (.unl k r) t').owes = -1
        by_cases ht : t' = t
        · subst ht; rw [hx, h.minus, ho, d1]; decide
        · rw [oth t' ht]; exact h.minus t'
      · have h1 := h.sum
        have h2 := List.length_erase_of_mem htP
        have h3 : 0 < P.length := List.length_pos_of_mem htP
        show s.cnt + d + _ = _
        rw [h2]
        omega
    · by_cases d2 : d = -1
      · have htN : t ∈ N := (h.minus t).2 (ho.trans d2)
        refine ⟨D, P, N.erase t, h.nd, h.keys, h.pn, fun t' => ?_, h.nn.erase t, fun t' => ?_, ?_, ncl⟩
        · show _ ↔ (upd s.th t (.unl k r) t').owes = 1
          by_cases ht : t' = t
          · subst ht; rw [hx, h.plus, ho, d2]; decide
          · rw [oth t' ht]; exact h.plus t'
        · show _ ↔ (upd s.th t (.unl k r) t').owes = -1
          rw [h.nn.mem_erase_iff]
          by_cases ht : t' = t
          · subst ht; rw [hx]; simp
          · rw [oth t' ht, ← h.minus t']; simp [ht]
        · have h1 := h.sum
          have h2 := List.length_erase_of_mem htN
          have h3 : 0 < N.length := List.length_pos_of_mem htN
          show s.cnt + d + _ = _
          rw [h2]
          omega
      · exact absurd (hr.owes t k r d h0) (by rintro (h | h) <;> contradiction)
  | unlock t k r h0 => exact ⟨D, P, N, h.thread t _ (by rw [h0]; rfl) rfl⟩
  | done t r h0 => exact ⟨D, P, N, h.thread t _ (by rw [h0]; rfl) rfl⟩
  | get t k h0 => exact ⟨D, P, N, h.thread t _ (by rw [h0]; rfl) rfl⟩
  | load t k src h0 => exact ⟨D, P, N, h.thread t _ (by rw [h0]; rfl) rfl⟩
  | expose t k src p h0 => exact ⟨D, P, N, h.thread t _ (by rw [h0]; rfl) rfl⟩
  | same t k src p h0 hp => exact ⟨D, P, N, h.thread t _ (by rw [h0]; rfl) rfl⟩
  | differs t k src p h0 hp => exact ⟨D, P, N, h.thread t _ (by rw [h0]; rfl) rfl⟩
  | nil t k h0 => exact ⟨D, P, N, h.thread t _ (by rw [h0]; rfl) rfl⟩
  | hit t k n h0 hk => exact ⟨D, P, N, h.thread t _ (by rw [h0]; rfl) rfl⟩
  | pass t k n h0 hk => exact ⟨D, P, N, h.thread t _ (by rw [h0]; rfl) rfl⟩
  | gdone t r h0 => exact ⟨D, P, N, h.thread t _ (by rw [h0]; rfl) rfl⟩
  | clear t h0 hc => cases hc
  | clock t i h0 hi hl => have := h.nocl t; rw [h0] at this; cases this
  | wipe t i h0 => have := h.nocl t; rw [h0] at this; cases this
  | cunlock t i h0 => have := h.nocl t; rw [h0] at this; cases this
  | cend t i h0 hi => have := h.nocl t; rw [h0] at this; cases this
  | zero t h0 => have := h.nocl t; rw [h0] at this; cases this
  | reclaim n hg hr' hz => exact ⟨D, P, N, h⟩

/-- Without `Clear`: when no operation is under way, `Size` is the number of keys. -/
theorem C138_size {bi mi mb : Nat → Nat} {nb : Nat} {gc : Bool} (hm : ∀ k, mi k = mb (bi k)) {s : S} (h : Reach bi mi mb nb gc false s) (hq : ∀ t, s.th t = .idle) :
    ∃ D : List Nat, D.Nodup ∧ (∀ k, k ∈ D ↔ s.m k ≠ none) ∧ s.size = D.length % 2 ^ 64 := by
  have : ∃ D P N, Z s.th s.m s.cnt D P N := by
    clear hq
    induction h with
    | init => exact ⟨[], [], [], List.nodup_nil, fun k => ⟨fun h => (by cases h), fun h => absurd rfl h⟩, List.nodup_nil, fun t => ⟨fun h => (by cases h), fun h => by cases h⟩, List.nodup_nil, fun t => ⟨fun h => (by cases h), fun h => by cases h⟩, rfl, fun _ => rfl⟩
    | step h hs ih =>
      obtain ⟨D, P, N, hZ⟩ := ih
      exact Z.step hm h hZ hs
  obtain ⟨D, P, N, hZ⟩ := this
  refine ⟨D, hZ.nd, hZ.keys, ?_⟩
  have hP : P = [] := List.eq_nil_iff_forall_not_mem.2 fun t ht => by have := (hZ.plus t).1 ht; rw [hq t] at this; cases this
  have hN : N = [] := List.eq_nil_iff_forall_not_mem.2 fun t ht => by have := (hZ.minus t).1 ht; rw [hq t] at this; cases this
  have := hZ.sum
  rw [hP, hN] at this
  simp only [List.length_nil] at this
  show (s.cnt % 2 ^ 64).toNat = _
  omega

end Verif.Sync.HashMap
