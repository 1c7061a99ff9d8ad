import Verif.Transport.ConnectorModel
/-!
# C42, C43: completion of calls
-/

namespace Verif.Transport.Connector

/-! ## Specification -/

def Ev.isDone (c : Nat) : Ev → Bool
  | .done c' _ => c' = c
  | _ => false

/-- How often the completion function of call `c` has been called. -/
def dones (tr : List Ev) (c : Nat) : Nat := tr.countP (Ev.isDone c)

/-- What justifies a result of a call with request id `id`. -/
def Justified (rid : Nat → Nat) (tr : List Ev) (id : Nat) : Why → Prop
  | .ok => .responded id ∈ tr
  | .timeout => ∃ c, rid c = id ∧ .fired c ∈ tr
  | .network => .swept id ∈ tr ∨ .closed ∈ tr

/-- Responses arrive only for requests that have been sent (or for ids that no call uses). -/
def Sane (rid : Nat → Nat) (as : List Act) : Prop :=
  ∀ l r id, as = l ++ .response id :: r → ∀ c, rid c = id → .sent c ∈ (run rid init [] l).2

/-! ## Invariant -/

def Disp.owns (c : Nat) : Disp → Bool
  | .lock c' _ | .use c' | .kill c' _ | .complete c' _ => c' = c
  | _ => false

def Pc.active : Pc → Nat
  | .idle | .checked => 0
  | _ => 1

variable {rid : Nat → Nat} {s : St} {tr : List Ev}

/-- Whether the context of call `c` is in the map. -/
def St.inMap (rid : Nat → Nat) (s : St) (c : Nat) : Nat := if s.map (rid c) = some c then 1 else 0

def Why? (rid : Nat → Nat) (tr : List Ev) : Disp → Prop
  | .reclaim id why => Justified rid tr id why
  | .response id => Justified rid tr id .ok
  | .use c => Justified rid tr (rid c) .ok
  | .lock c why | .kill c why | .complete c why => Justified rid tr (rid c) why

structure Inv (rid : Nat → Nat) (s : St) (tr : List Ev) : Prop where
  count : ∀ c, s.inMap rid c + s.disp.countP (Disp.owns c) + dones tr c = (s.pc c).active
  key : ∀ k c, s.map k = some c → rid c = k
  t0 : ∀ c, s.timer c = .none ↔ (s.pc c = .idle ∨ s.pc c = .checked ∨ s.pc c = .inserted ∨ s.pc c = .filled ∨
    s.pc c = .rejected)
  t1 : ∀ c, s.map (rid c) = some c → s.timer c = .fired → .reclaim (rid c) .timeout ∈ s.disp
  t2 : ∀ c, s.timer c = .killed → s.map (rid c) ≠ some c
  why : ∀ d ∈ s.disp, Why? rid tr d
  ans : ∀ c w, .done c w ∈ tr → Justified rid tr (rid c) w
  unhealthy : s.healthy = false → .closed ∈ tr
  rej : ∀ c, s.pc c = .rejected → dones tr c = 1
  sent : ∀ c, .sent c ∈ tr ↔ s.pc c = .sent

theorem Justified.mono {id : Nat} {w : Why} (h : Justified rid tr id w) (ev : List Ev) :
    Justified rid (tr ++ ev) id w := by
  cases w with
  | ok => exact List.mem_append_left _ h
  | timeout => obtain ⟨c, h1, h2⟩ := h; exact ⟨c, h1, List.mem_append_left _ h2⟩
  | network => exact h.imp (List.mem_append_left _) (List.mem_append_left _)

theorem Why?.mono {d : Disp} (h : Why? rid tr d) (ev : List Ev) : Why? rid (tr ++ ev) d := by
  cases d <;> (unfold Why? at h ⊢; exact Justified.mono h ev)

@[simp] theorem dones_append (a b : List Ev) (c : Nat) : dones (a ++ b) c = dones a c + dones b c :=
  List.countP_append
@[simp] theorem dones_nil (c : Nat) : dones [] c = 0 := rfl
@[simp] theorem dones_done (c' c : Nat) (w : Why) : dones [.done c' w] c = if c' = c then 1 else 0 := by
  simp [dones, Ev.isDone]
@[simp] theorem dones_fired (c' c : Nat) : dones [.fired c'] c = 0 := rfl
@[simp] theorem dones_sent (c' c : Nat) : dones [.sent c'] c = 0 := rfl
@[simp] theorem dones_responded (c' c : Nat) : dones [.responded c'] c = 0 := rfl
@[simp] theorem dones_closed (c : Nat) : dones [.closed] c = 0 := rfl
@[simp] theorem dones_swept (c' c : Nat) : dones [.swept c'] c = 0 := rfl
@[simp] theorem dones_crash (c : Nat) : dones [.crash] c = 0 := rfl

@[simp] theorem upd_self {β : Type} (f : Nat → β) (k : Nat) (v : β) : upd f k v k = v := by simp [upd]
theorem upd_ne {β : Type} (f : Nat → β) {k x : Nat} (v : β) (h : x ≠ k) : upd f k v x = f x := by simp [upd, h]

theorem inv_init (rid : Nat → Nat) : Inv rid init [] := by
  constructor <;> simp [Connector.init, St.inMap, Pc.active]

/-- A step of a calling fiber that only advances its program counter. -/
theorem Inv.advance (h : Inv rid s tr) (c : Nat) (p : Pc) (ev : List Ev)
    (hp : p.active = (s.pc c).active)
    (h0 : s.timer c = .none ↔ (p = .idle ∨ p = .checked ∨ p = .inserted ∨ p = .filled ∨ p = .rejected))
    (hr : p ≠ .rejected) (hr2 : s.pc c ≠ .sent)
    (hev : ev = if p = .sent then [.sent c] else []) :
    Inv rid { s with pc := upd s.pc c p } (tr ++ ev) := by
  have hd : ∀ x, dones ev x = 0 := by intro x; rw [hev]; split <;> simp
  have hm : ∀ x, .sent x ∈ ev ↔ (p = .sent ∧ x = c) := by intro x; rw [hev]; split <;> simp_all
  have hn : ∀ x w, .done x w ∉ ev := by intro x w; rw [hev]; split <;> simp
  refine ⟨?_, h.key, ?_, h.t1, h.t2, fun d hd => (h.why d hd).mono _, ?_,
    fun hh => List.mem_append_left _ (h.unhealthy hh), ?_, ?_⟩
  · intro x
    have := h.count x
    by_cases e : x = c
    · subst e; simp only [St.inMap, upd_self, hp, dones_append, hd] at this ⊢; omega
    · simp only [St.inMap, upd_ne _ _ e, dones_append, hd] at this ⊢; omega
  · intro x
    by_cases e : x = c
    · subst e; simp only [upd_self]; exact h0
    · simp only [upd_ne _ _ e]; exact h.t0 x
  · intro x w hx
    rcases List.mem_append.1 hx with hx | hx
    · exact (h.ans x w hx).mono _
    · exact absurd hx (hn x w)
  · intro x hx
    by_cases e : x = c
    · subst e; simp only [upd_self] at hx; exact absurd hx hr
    · simp only [upd_ne _ _ e] at hx; simp [hd, h.rej x hx]
  · intro x
    rw [List.mem_append, hm, h.sent]
    by_cases e : x = c
    · subst e; simp [hr2]
    · simp [upd_ne _ _ e, e]

theorem Inv.call (h : Inv rid s tr) (c : Nat) (hc : (callStep rid s c).1.crashed = false) :
    Inv rid (callStep rid s c).1 (tr ++ (callStep rid s c).2) := by
  have ht := h.t0 c
  have hcc := h.count c
  cases e : s.pc c <;> simp only [callStep, e] at hc ⊢
  case idle =>
    split
    · exact h.advance c _ _ (by rw [e]; rfl) (by rw [ht, e]; simp) (by simp) (by simp [e]) (by simp)
    · next hh =>
      have hh : s.healthy = false := by simpa using hh
      have hcl := h.unhealthy hh
      refine ⟨?_, h.key, ?_, h.t1, h.t2, fun d hd => (h.why d hd).mono _, ?_,
        fun hh => List.mem_append_left _ (h.unhealthy hh), ?_, ?_⟩
      · intro x
        have := h.count x
        by_cases ex : x = c
        · subst ex
          simp only [e, Pc.active, St.inMap] at hcc
          simp only [upd_self, Pc.active, St.inMap, dones_append, dones_done, if_true]; omega
        · simp [St.inMap, upd_ne _ _ ex, Ne.symm ex] at this ⊢; omega
      · intro x
        by_cases ex : x = c
        · subst ex; simp [ht, e]
        · simp only [upd_ne _ _ ex]; exact h.t0 x
      · intro x w hx
        rcases List.mem_append.1 hx with hx | hx
        · exact (h.ans x w hx).mono _
        · simp at hx; rw [hx.2]; exact Or.inr (List.mem_append_left _ hcl)
      · intro x hx
        have hcx := h.count x
        by_cases ex : x = c
        · subst ex; simp only [e, Pc.active] at hcx; simp; omega
        · simp only [upd_ne _ _ ex] at hx; simp [Ne.symm ex, h.rej x hx]
      · intro x
        rw [List.mem_append, h.sent]
        by_cases ex : x = c
        · subst ex; simp [e]
        · simp [upd_ne _ _ ex]
  case checked =>
    cases em : s.map (rid c) with
    | some y => simp [em, St.crash] at hc
    | none =>
      simp only
      refine ⟨?_, ?_, ?_, ?_, ?_, fun d hd => (h.why d hd).mono _, ?_,
        fun hh => List.mem_append_left _ (h.unhealthy hh), ?_, ?_⟩
      · intro x
        have hx := h.count x
        by_cases ex : x = c
        · subst ex
          simp only [e, Pc.active, St.inMap, em] at hx
          simp only [upd_self, Pc.active, St.inMap, if_true, List.append_nil]; simp only [reduceCtorEq, if_false] at hx; omega
        · have : (upd s.map (rid c) (some c) (rid x) = some x) ↔ s.map (rid x) = some x := by
            by_cases er : rid x = rid c
            · rw [er]; simp [em, Ne.symm ex]
            · rw [upd_ne _ _ er]
          simp [St.inMap, upd_ne _ _ ex, this] at hx ⊢; omega
      · intro k x hk
        by_cases ek : k = rid c
        · subst ek; simp at hk; rw [hk]
        · simp only [upd_ne _ _ ek] at hk; exact h.key k x hk
      · intro x
        by_cases ex : x = c
        · subst ex; simp [ht, e]
        · simp only [upd_ne _ _ ex]; exact h.t0 x
      · intro x hx hf
        by_cases ex : x = c
        · subst ex; rw [ht.2 (by simp [e])] at hf; cases hf
        · refine h.t1 x ?_ hf
          by_cases er : rid x = rid c
          · simp only [er, upd_self] at hx; cases hx; exact absurd rfl ex
          · simpa only [upd_ne _ _ er] using hx
      · intro x hf hx
        by_cases ex : x = c
        · subst ex; rw [ht.2 (by simp [e])] at hf; cases hf
        · refine h.t2 x hf ?_
          by_cases er : rid x = rid c
          · simp only [er, upd_self] at hx; cases hx; exact absurd rfl ex
          · simpa only [upd_ne _ _ er] using hx
      · intro x w hx; simp at hx; simpa using h.ans x w hx
      · intro x hx
        by_cases ex : x = c
        · subst ex; simp at hx
        · simp only [upd_ne _ _ ex] at hx; simpa using h.rej x hx
      · intro x
        rw [List.append_nil, h.sent]
        by_cases ex : x = c
        · subst ex; simp [e]
        · simp [upd_ne _ _ ex]
  case inserted => exact h.advance c _ _ (by rw [e]; rfl) (by rw [ht, e]; simp) (by simp) (by simp [e]) (by simp)
  case filled =>
    have hb : s.timer c = .none := ht.2 (by simp [e])
    refine ⟨?_, h.key, ?_, ?_, ?_, fun d hd => (h.why d hd).mono _, ?_,
      fun hh => List.mem_append_left _ (h.unhealthy hh), ?_, ?_⟩
    · intro x
      have := h.count x
      by_cases ex : x = c
      · subst ex; simp [St.inMap, Pc.active, e] at this ⊢; omega
      · simp [St.inMap, upd_ne _ _ ex] at this ⊢; omega
    · intro x
      by_cases ex : x = c
      · subst ex; simp
      · simp only [upd_ne _ _ ex]; exact h.t0 x
    · intro x hx hf
      by_cases ex : x = c
      · subst ex; simp at hf
      · simp only [upd_ne _ _ ex] at hf; exact h.t1 x hx hf
    · intro x hf
      by_cases ex : x = c
      · subst ex; simp at hf
      · simp only [upd_ne _ _ ex] at hf; exact h.t2 x hf
    · intro x w hx; simp at hx; simpa using h.ans x w hx
    · intro x hx
      by_cases ex : x = c
      · subst ex; simp at hx
      · simp only [upd_ne _ _ ex] at hx; simpa using h.rej x hx
    · intro x
      rw [List.append_nil, h.sent]
      by_cases ex : x = c
      · subst ex; simp [e]
      · simp [upd_ne _ _ ex]
  case armed => exact h.advance c _ _ (by rw [e]; rfl) (by rw [ht, e]; simp) (by simp) (by simp [e]) (by simp)
  case saved => exact h.advance c _ _ (by rw [e]; rfl) (by rw [ht, e]; simp) (by simp) (by simp [e]) (by simp)
  case sent => simpa using h
  case rejected => simpa using h

theorem split_at {l : List Disp} {i : Nat} {d : Disp} (h : l[i]? = some d) :
    l = l.take i ++ d :: l.drop (i + 1) := by
  obtain ⟨hi, rfl⟩ := List.getElem?_eq_some_iff.1 h
  rw [← List.drop_eq_getElem_cons hi, List.take_append_drop]

/-- The new activities of a step of an activity. -/
theorem Inv.disp (h : Inv rid s tr) {l r : List Disp} {d : Disp} (hd : s.disp = l ++ d :: r)
    (hc : (dispStep s d).1.1.crashed = false) :
    Inv rid { (dispStep s d).1.1 with disp := l ++ (dispStep s d).2.toList ++ r } (tr ++ (dispStep s d).1.2) := by
  have hw := h.why d (by simp [hd])
  have hlr : ∀ x ∈ l ++ r, Why? rid tr x := by
    intro x hx; refine h.why x ?_; rw [hd]; simp at hx ⊢; grind
  have hcount : ∀ x, s.inMap rid x + ((l.countP (Disp.owns x) + r.countP (Disp.owns x)) +
      if d.owns x then 1 else 0) + dones tr x = (s.pc x).active := by
    intro x
    have := h.count x
    rw [hd, List.countP_append, List.countP_cons] at this
    omega
  have hmem : ∀ x, x ∈ s.disp → x ≠ d → x ∈ l ++ r := by
    intro x hx hne; rw [hd] at hx; simp at hx ⊢; grind
  -- A step that changes nothing but the activity.
  have keep : ∀ d', (∀ x, (d'.owns x) = (d.owns x)) → Why? rid tr d' →
      (∀ c, d ≠ .reclaim (rid c) .timeout) → Inv rid { s with disp := l ++ [d'] ++ r } tr := by
    intro d' ho hw' hne
    refine ⟨?_, h.key, h.t0, ?_, h.t2, ?_, h.ans, h.unhealthy, h.rej, h.sent⟩
    · intro x
      have := hcount x
      simp only [List.countP_append, List.countP_cons, List.countP_nil, ho] at this ⊢
      simp only [St.inMap] at this ⊢; omega
    · intro c hm hf
      have := hmem _ (h.t1 c hm hf) (fun e => hne c e.symm)
      simp at this ⊢; grind
    · intro x hx
      simp at hx
      rcases hx with hx | rfl | hx
      · exact hlr x (by simp [hx])
      · exact hw'
      · exact hlr x (by simp [hx])
  -- A reclaim that finds nothing.
  have gone : ∀ id, s.map id = none → (∀ x, d.owns x = false) → (∀ c, d = .reclaim (rid c) .timeout → rid c = id) →
      Inv rid { s with disp := l ++ r } tr := by
    intro id hm ho hne
    refine ⟨?_, h.key, h.t0, ?_, h.t2, hlr, h.ans, h.unhealthy, h.rej, h.sent⟩
    · intro x
      have := hcount x
      simp only [List.countP_append, ho] at this ⊢
      simp only [St.inMap] at this ⊢
      simp at this
      omega
    · intro c hmc hf
      refine hmem _ (h.t1 c hmc hf) fun e => ?_
      rw [hne c e.symm, hm] at hmc; cases hmc
  -- A reclaim that finds a context.
  have take : ∀ id c d', s.map id = some c → (∀ x, d.owns x = false) →
      (∀ c, d = .reclaim (rid c) .timeout → rid c = id) → (∀ x, d'.owns x = (c = x : Bool)) → Why? rid tr d' →
      Inv rid { s with map := upd s.map id none, disp := l ++ [d'] ++ r } tr := by
    intro id c d' hm ho hne ho' hw'
    have hid := h.key id c hm
    subst hid
    have hmx : ∀ x, upd s.map (rid c) none (rid x) = some x ↔ s.map (rid x) = some x ∧ x ≠ c := by
      intro x
      by_cases er : rid x = rid c
      · rw [er]; simp [hm]; intro hh; exact hh.symm
      · rw [upd_ne _ _ er]
        refine ⟨fun hh => ⟨hh, fun e => er (by rw [e])⟩, fun hh => hh.1⟩
    refine ⟨?_, ?_, h.t0, ?_, ?_, ?_, h.ans, h.unhealthy, h.rej, h.sent⟩
    · intro x
      have := hcount x
      simp only [St.inMap, hmx, List.countP_append, List.countP_cons, List.countP_nil, ho', ho,
        Bool.false_eq_true, if_false] at this ⊢
      by_cases ex : x = c
      · subst ex; simp [hm] at this ⊢; omega
      · simp [ex, Ne.symm ex] at this ⊢; omega
    · intro k x hk
      by_cases ek : k = rid c
      · subst ek; simp at hk
      · simp only [upd_ne _ _ ek] at hk; exact h.key k x hk
    · intro x hx hf
      obtain ⟨h1, h2⟩ := (hmx x).1 hx
      have := hmem _ (h.t1 x h1 hf) (fun e => ?_)
      · simp at this ⊢; grind
      · have := hne x e.symm
        rw [this, hm] at h1; cases h1; exact h2 rfl
    · intro x hf hx
      exact h.t2 x hf ((hmx x).1 hx).1
    · intro x hx
      simp at hx
      rcases hx with hx | rfl | hx
      · exact hlr x (by simp [hx])
      · exact hw'
      · exact hlr x (by simp [hx])
  cases d with
  | reclaim id why =>
    simp only [dispStep]
    split
    · next hm =>
      simpa using gone id hm (fun x => rfl) (by intro c e; cases e; rfl)
    · next c hm =>
      have := take id c (.lock c why) hm (fun x => rfl) (by intro c e; cases e; rfl) (fun x => rfl)
        (by rw [Why?, h.key id c hm]; exact hw)
      simpa using this
  | lock c why =>
    simp only [dispStep]
    split
    · simpa using keep (.lock c why) (fun x => rfl) hw (by simp)
    · simpa using keep (.kill c why) (fun x => rfl) hw (by simp)
  | response id =>
    simp only [dispStep]
    split
    · next hm => simpa using gone id hm (fun x => rfl) (by simp)
    · next c hm =>
      have := take id c (.use c) hm (fun x => rfl) (by simp) (fun x => rfl) (by rw [Why?, h.key id c hm]; exact hw)
      simpa using this
  | use c =>
    simp only [dispStep] at hc ⊢
    split
    · next e => simp [e, St.crash] at hc
    · simpa using keep (.kill c .ok) (fun x => rfl) hw (by simp)
  | kill c why =>
    have hk := keep (.complete c why) (fun x => rfl) hw (by simp)
    simp only [dispStep]
    split
    · next ea =>
      have hnm : s.map (rid c) ≠ some c := by
        intro hm
        have := hcount c
        have ha : (s.pc c).active ≤ 1 := by unfold Pc.active; split <;> simp
        simp [St.inMap, hm, Disp.owns] at this; omega
      simp only [Option.toList_some, List.append_nil]
      refine ⟨hk.count, hk.key, ?_, ?_, ?_, hk.why, hk.ans, hk.unhealthy, hk.rej, hk.sent⟩
      · intro x
        by_cases ex : x = c
        · subst ex; have := h.t0 x; simp [ea] at this ⊢; exact this
        · simp only [upd_ne _ _ ex]; exact h.t0 x
      · intro x hx hf
        by_cases ex : x = c
        · subst ex; simp at hf
        · simp only [upd_ne _ _ ex] at hf; exact hk.t1 x hx hf
      · intro x hf
        by_cases ex : x = c
        · subst ex; exact hnm
        · simp only [upd_ne _ _ ex] at hf; exact h.t2 x hf
    · simpa using hk
  | complete c why =>
    simp only [dispStep] at hc ⊢
    split
    · next e => simp [e] at hc
    · have hcc := hcount c
      simp only [Option.toList_none, List.append_nil]
      refine ⟨?_, h.key, h.t0, ?_, h.t2, fun x hx => (hlr x hx).mono _, ?_,
        fun hh => List.mem_append_left _ (h.unhealthy hh), ?_, ?_⟩
      · intro x
        have := hcount x
        simp only [List.countP_append, dones_append, dones_done, Disp.owns, decide_eq_true_eq] at this ⊢
        simp only [St.inMap] at this ⊢; omega
      · intro x hx hf
        exact hmem _ (h.t1 x hx hf) (by simp)
      · intro x w hx
        rcases List.mem_append.1 hx with hx | hx
        · exact (h.ans x w hx).mono _
        · simp at hx; rw [hx.1, hx.2]; exact Justified.mono hw _
      · intro x hx
        have := h.rej x hx
        by_cases ex : c = x
        · subst ex
          have hx : s.pc c = .rejected := hx
          rw [hx] at hcc
          simp [Disp.owns, Pc.active] at hcc; omega
        · simp [ex, this]
      · intro x; rw [List.mem_append, h.sent]; simp

theorem Inv.add (h : Inv rid s tr) (d : Disp) (e : Ev) (hd : ∀ c, d.owns c = false) (hw : Why? rid (tr ++ [e]) d)
    (he : ∀ x, e.isDone x = false) (he2 : ∀ x, e ≠ .sent x) :
    Inv rid { s with disp := s.disp ++ [d] } (tr ++ [e]) := by
  have h0 : ∀ x, dones [e] x = 0 := by intro x; simp [dones, he]
  refine ⟨?_, h.key, h.t0, ?_, h.t2, ?_, ?_, fun hh => List.mem_append_left _ (h.unhealthy hh), ?_, ?_⟩
  · intro x
    have := h.count x
    simp only [List.countP_append, List.countP_cons, List.countP_nil, hd, dones_append, h0, St.inMap] at this ⊢
    simpa using this
  · intro x hx hf; exact List.mem_append_left _ (h.t1 x hx hf)
  · intro x hx
    rcases List.mem_append.1 hx with hx | hx
    · exact (h.why x hx).mono _
    · simp at hx; rw [hx]; exact hw
  · intro x w hx
    rcases List.mem_append.1 hx with hx | hx
    · exact (h.ans x w hx).mono _
    · simp at hx; have := he x; rw [← hx] at this; simp [Ev.isDone] at this
  · intro x hx; simp [h0, h.rej x hx]
  · intro x
    rw [List.mem_append, h.sent]; simp; exact fun hx => absurd hx.symm (he2 x)

theorem Inv.step (h : Inv rid s tr) (a : Act) (hc : (step rid s a).1.crashed = false) :
    Inv rid (step rid s a).1 (tr ++ (step rid s a).2) := by
  unfold Connector.step at hc ⊢
  by_cases hcr : s.crashed
  · simp [hcr] at hc
  rw [if_neg hcr] at hc ⊢
  cases a with
  | call c => exact h.call c hc
  | fire c =>
    simp only
    split
    · next e =>
      have h' := h.add (.reclaim (rid c) .timeout) (.fired c) (fun x => rfl) ⟨c, rfl, by simp⟩ (fun x => rfl) (by simp)
      refine ⟨h'.count, h'.key, ?_, ?_, ?_, h'.why, h'.ans, h'.unhealthy, h'.rej, h'.sent⟩
      · intro x
        by_cases ex : x = c
        · subst ex; have := h.t0 x; simp [e] at this ⊢; exact this
        · simp only [upd_ne _ _ ex]; exact h.t0 x
      · intro x hx hf
        by_cases ex : x = c
        · subst ex; simp
        · simp only [upd_ne _ _ ex] at hf; exact h'.t1 x hx hf
      · intro x hf
        by_cases ex : x = c
        · subst ex; simp at hf
        · simp only [upd_ne _ _ ex] at hf; exact h.t2 x hf
    · simpa using h
  | response id => exact h.add (.response id) (.responded id) (fun x => rfl) (by simp [Why?, Justified]) (fun x => rfl) (by simp)
  | close =>
    refine ⟨?_, h.key, h.t0, h.t1, h.t2, fun d hd => (h.why d hd).mono _, ?_, fun _ => by simp, ?_, ?_⟩
    · intro x; simpa [St.inMap] using h.count x
    · intro x w hx; simp at hx; exact (h.ans x w hx).mono _
    · intro x hx; simpa using h.rej x hx
    · intro x; simpa using h.sent x
  | sweep id => exact h.add (.reclaim id .network) (.swept id) (fun x => rfl) (by simp [Why?, Justified]) (fun x => rfl) (by simp)
  | disp i =>
    simp only at hc ⊢
    split
    · simpa using h
    · next d e =>
      rw [e] at hc
      exact h.disp (split_at e) hc

theorem run_append (as bs : List Act) : ∀ s tr,
    run rid s tr (as ++ bs) = run rid (run rid s tr as).1 (run rid s tr as).2 bs := by
  induction as with
  | nil => intros; rfl
  | cons a as ih => intro s tr; exact ih _ _

theorem step_crashed (h : s.crashed = true) (a : Act) : step rid s a = (s, []) := by simp [step, h]

theorem run_crashed (as : List Act) : ∀ {s tr}, s.crashed = true → run rid s tr as = (s, tr) := by
  induction as with
  | nil => intros; rfl
  | cons a as ih => intro s tr h; rw [run, step_crashed h, List.append_nil]; exact ih h

theorem inv_run (as : List Act) (hc : (run rid init [] as).1.crashed = false) :
    Inv rid (run rid init [] as).1 (run rid init [] as).2 := by
  have key : ∀ (as : List Act) s tr, Inv rid s tr → (run rid s tr as).1.crashed = false →
      Inv rid (run rid s tr as).1 (run rid s tr as).2 := by
    intro as
    induction as with
    | nil => intro s tr h _; exact h
    | cons a as ih =>
      intro s tr h hc
      by_cases hs : (step rid s a).1.crashed
      · rw [run, run_crashed as hs] at hc; simp [hs] at hc
      · exact ih _ _ (h.step a (by simpa using hs)) hc
  exact key as _ _ (inv_init rid) hc

/-! ## C42 -/

variable (rid : Nat → Nat) (as : List Act)

theorem active_le (p : Pc) : p.active ≤ 1 := by unfold Pc.active; split <;> simp

/-- **C42.** The completion function of a call is called at most once, whatever responses arrive and even if the process
crashes. -/
theorem C42_at_most_once (c : Nat) : dones (run rid init [] as).2 c ≤ 1 := by
  have key : ∀ (as : List Act) s tr, Inv rid s tr → dones (run rid s tr as).2 c ≤ 1 := by
    intro as
    induction as with
    | nil =>
      intro s tr h
      have := h.count c
      have := active_le (s.pc c)
      show dones tr c ≤ 1; omega
    | cons a as ih =>
      intro s tr h
      by_cases hs : (step rid s a).1.crashed
      · rw [run, run_crashed as hs]
        have hcount := h.count c
        have hle := active_le (s.pc c)
        simp only [dones_append]
        by_cases hcr : s.crashed
        · simp [step, hcr]; omega
        · suffices dones (step rid s a).2 c ≤ s.disp.countP (Disp.owns c) by omega
          unfold step at hs ⊢
          rw [if_neg hcr] at hs ⊢
          cases a with
          | call c' =>
            cases e : s.pc c' <;> simp only [callStep, e] at hs ⊢
            case idle => split at hs <;> exact absurd hs hcr
            case checked => split <;> simp [St.crash]
            all_goals exact absurd hs hcr
          | fire c' => simp only at hs ⊢; split <;> simp
          | response id => simp
          | close => simp
          | sweep id => simp
          | disp i =>
            simp only at hs ⊢
            split
            · simp
            · next d e =>
              have hd : s.disp.countP (Disp.owns c) = (s.disp.take i).countP (Disp.owns c) +
                  ((s.disp.drop (i + 1)).countP (Disp.owns c) + if d.owns c then 1 else 0) := by
                conv => lhs; rw [split_at e]
                rw [List.countP_append, List.countP_cons]
              rw [hd]
              cases d with
              | complete c' w =>
                simp only [dispStep]
                split
                · show dones ([.done c' w] ++ [.crash]) c ≤ _
                  simp only [dones_append, dones_done, dones_crash, Disp.owns, decide_eq_true_eq]; omega
                · simp only [dones_done, Disp.owns, decide_eq_true_eq]; omega
              | reclaim id w => simp only [dispStep]; split <;> simp
              | lock c' w => simp only [dispStep]; split <;> simp
              | response id => simp only [dispStep]; split <;> simp
              | use c' => simp only [dispStep]; split <;> simp [St.crash]
              | kill c' w => simp only [dispStep]; split <;> simp
      · exact ih _ _ (h.step a (by simpa using hs))
  exact key as _ _ (inv_init rid)

/-- **C42.** Whenever no activity is running, a call for which `SaveCallContext` has returned has been completed exactly
once, or its timer is armed. -/
theorem C42_never_lost (hc : (run rid init [] as).1.crashed = false) (hd : (run rid init [] as).1.disp = []) (c : Nat)
    (hp : (run rid init [] as).1.pc c = .saved ∨ (run rid init [] as).1.pc c = .sent ∨
      (run rid init [] as).1.pc c = .rejected) :
    dones (run rid init [] as).2 c = 1 ∨
      (dones (run rid init [] as).2 c = 0 ∧ (run rid init [] as).1.timer c = .armed) := by
  have h := inv_run as hc
  have hcount := h.count c
  have ha : ((run rid init [] as).1.pc c).active = 1 := by rcases hp with hp | hp | hp <;> rw [hp] <;> rfl
  rw [ha, hd] at hcount
  simp only [List.countP_nil] at hcount
  by_cases hm : (run rid init [] as).1.map (rid c) = some c
  · simp only [St.inMap, hm, if_true] at hcount
    right
    refine ⟨by omega, ?_⟩
    have h1 := h.t1 c hm
    have h2 := h.t2 c
    have h0 := h.t0 c
    rw [hd] at h1
    cases ht : (run rid init [] as).1.timer c with
    | none =>
      rw [ht] at h0
      have h0 := h0.1 rfl
      rcases hp with hp | hp | hp <;> rw [hp] at h0 <;> simp at h0
      have := h.rej c hp; omega
    | armed => rfl
    | fired => simp [ht] at h1
    | killed => exact absurd hm (h2 ht)
  · left; simp only [St.inMap, hm, if_false] at hcount; omega

/-- **C42.** A call with an armed timer that has not been completed, and that no activity is completing, is completed by
its timer. -/
theorem C42_timeout_completes (hc : (run rid init [] as).1.crashed = false) (c : Nat)
    (hp : (run rid init [] as).1.pc c = .saved ∨ (run rid init [] as).1.pc c = .sent)
    (ht : (run rid init [] as).1.timer c = .armed) (hdn : dones (run rid init [] as).2 c = 0)
    (hd : (run rid init [] as).1.disp = []) :
    dones (run rid init [] (as ++ [.fire c, .disp 0, .disp 0, .disp 0, .disp 0])).2 c = 1 ∧
    .done c .timeout ∈ (run rid init [] (as ++ [.fire c, .disp 0, .disp 0, .disp 0, .disp 0])).2 := by
  have h := inv_run as hc
  have hcount := h.count c
  have ha : ((run rid init [] as).1.pc c).active = 1 := by rcases hp with hp | hp <;> rw [hp] <;> rfl
  have hm : (run rid init [] as).1.map (rid c) = some c := by
    by_cases hm : (run rid init [] as).1.map (rid c) = some c
    · exact hm
    · simp [St.inMap, hm, hd, ha] at hcount; omega
  have hl : (run rid init [] as).1.locked c = false := by
    rcases hp with hp | hp <;> simp [St.locked, hp]
  rw [run_append]
  generalize run rid init [] as = q at *
  obtain ⟨s, tr⟩ := q
  simp only [St.locked] at *
  have hdd : dones [.fired c, .done c .timeout] c = 1 := by
    simp [dones, Ev.isDone]
  simp [run, step, hc, ht, hd, dispStep, hm, St.locked, hl, hdn, hdd]

/-- **C42.** Every result has a reason: success needs a response with the id of the call, a timeout needs the timer of a
call with that id to have fired, a network error needs the connection to have been closed or cleared. -/
theorem C42_results_justified (hc : (run rid init [] as).1.crashed = false) (c : Nat) (w : Why)
    (hd : .done c w ∈ (run rid init [] as).2) : Justified rid (run rid init [] as).2 (rid c) w :=
  (inv_run as hc).ans c w hd

/-- **C42.** With distinct request ids a timeout is reported only if the timer of this very call has fired. -/
theorem C42_timeout_own (hr : ∀ c c', rid c = rid c' → c = c') (hc : (run rid init [] as).1.crashed = false) (c : Nat)
    (hd : .done c .timeout ∈ (run rid init [] as).2) : .fired c ∈ (run rid init [] as).2 := by
  obtain ⟨c', h1, h2⟩ := C42_results_justified rid as hc c .timeout hd
  rwa [hr _ _ h1] at h2

/-! ### No crash -/

/-- Where the calls being completed are. -/
def Placed (rid : Nat → Nat) (s : St) : Disp → Prop
  | .response id => ∀ c, rid c = id → s.pc c = .sent
  | .use c => s.pc c = .sent
  | .lock c _ => s.pc c ≠ .idle ∧ s.pc c ≠ .checked
  | .kill c _ | .complete c _ => s.pc c = .saved ∨ s.pc c = .sent
  | _ => True

structure Good (rid : Nat → Nat) (s : St) : Prop where
  ok : s.crashed = false
  placed : ∀ d ∈ s.disp, Placed rid s d
  saved : ∀ k c, s.map k = some c → s.pc c ≠ .rejected

/-- Program counters only move forward. -/
theorem Placed.call {rid : Nat → Nat} {s s' : St} {d : Disp} (h : Placed rid s d)
    (h1 : ∀ c, s.pc c = .sent → s'.pc c = .sent)
    (h2 : ∀ c, s.pc c = .saved → s'.pc c = .saved ∨ s'.pc c = .sent)
    (h3 : ∀ c, s.pc c ≠ .idle → s.pc c ≠ .checked → s'.pc c ≠ .idle ∧ s'.pc c ≠ .checked) : Placed rid s' d := by
  cases d with
  | response id => exact fun c hc => h1 c (h c hc)
  | use c => exact h1 c h
  | lock c w => exact h3 c h.1 h.2
  | kill c w => exact h.elim (h2 c) fun hh => Or.inr (h1 c hh)
  | complete c w => exact h.elim (h2 c) fun hh => Or.inr (h1 c hh)
  | reclaim id w => trivial

theorem pc_forward (rid : Nat → Nat) (s : St) (c x : Nat) :
    (s.pc x = .sent → (callStep rid s c).1.pc x = .sent) ∧
    (s.pc x = .saved → (callStep rid s c).1.pc x = .saved ∨ (callStep rid s c).1.pc x = .sent) ∧
    (s.pc x ≠ .idle → s.pc x ≠ .checked → (callStep rid s c).1.pc x ≠ .idle ∧ (callStep rid s c).1.pc x ≠ .checked) := by
  by_cases e : x = c
  · subst e
    unfold callStep
    cases h : s.pc x <;> simp
    all_goals first | (split <;> simp [St.crash, h]; done) | simp [h]
  · have : (callStep rid s c).1.pc x = s.pc x := by
      unfold callStep
      split <;> (try split) <;> simp [upd_ne _ _ e, St.crash]
    rw [this]; grind

theorem Good.step {rid : Nat → Nat} {s : St} {tr : List Ev} (h : Inv rid s tr) (g : Good rid s)
    (hr : ∀ c c', rid c = rid c' → c = c') (a : Act)
    (ha : ∀ id, a = .response id → ∀ c, rid c = id → .sent c ∈ tr) : Good rid (step rid s a).1 := by
  unfold Connector.step
  rw [if_neg (by simp [g.ok])]
  cases a with
  | call c =>
    have hpl : ∀ d ∈ s.disp, Placed rid (callStep rid s c).1 d := fun d hd =>
      (g.placed d hd).call (fun x => (pc_forward rid s c x).1) (fun x => (pc_forward rid s c x).2.1)
        (fun x => (pc_forward rid s c x).2.2)
    have hcc := h.count c
    simp only
    cases e : s.pc c <;> simp only [callStep, e] at hpl ⊢
    case idle =>
      split
      · next hh =>
        refine ⟨g.ok, by simpa [hh] using hpl, fun k x hk => ?_⟩
        have := g.saved k x hk
        by_cases ex : x = c
        · subst ex; simp
        · simpa [upd_ne _ _ ex] using this
      · next hh =>
        refine ⟨g.ok, by simpa [hh] using hpl, fun k x hk => ?_⟩
        have := g.saved k x hk
        by_cases ex : x = c
        · subst ex
          have hk' := h.key k x hk
          subst hk'
          have hk : s.map (rid x) = some x := hk
          simp [e, Pc.active, St.inMap, hk] at hcc
        · simpa [upd_ne _ _ ex] using this
    case checked =>
      cases em : s.map (rid c) with
      | some y =>
        have := hr _ _ (h.key _ _ em)
        subst this
        simp [e, Pc.active, St.inMap, em] at hcc
      | none =>
        refine ⟨g.ok, by simpa [em] using hpl, fun k x hk => ?_⟩
        by_cases ex : x = c
        · subst ex; simp
        · simp only [upd_ne _ _ ex]
          refine g.saved k x ?_
          by_cases ek : k = rid c
          · subst ek; simp at hk; exact absurd hk.symm ex
          · simpa only [upd_ne _ _ ek] using hk
    all_goals
      refine ⟨g.ok, hpl, fun k x hk => ?_⟩
      have := g.saved k x hk
      by_cases ex : x = c
      · first
          | (subst ex; simp; done)
          | exact this
      · first
          | simpa [upd_ne _ _ ex] using this
          | exact this
  | fire c =>
    simp only
    split
    · refine ⟨g.ok, ?_, g.saved⟩
      intro d hd
      rcases List.mem_append.1 hd with hd | hd
      · exact (g.placed d hd).call (fun _ => id) (fun _ hh => Or.inl hh) (fun _ h1 h2 => ⟨h1, h2⟩)
      · simp at hd; rw [hd]; trivial
    · exact g
  | response id =>
    refine ⟨g.ok, ?_, g.saved⟩
    intro d hd
    rcases List.mem_append.1 hd with hd | hd
    · exact (g.placed d hd).call (fun _ => _root_.id) (fun _ hh => Or.inl hh) (fun _ h1 h2 => ⟨h1, h2⟩)
    · simp at hd; rw [hd]; exact fun c hc => (h.sent c).1 (ha id rfl c hc)
  | close =>
    exact ⟨g.ok, fun d hd => (g.placed d hd).call (fun _ => id) (fun _ hh => Or.inl hh) (fun _ h1 h2 => ⟨h1, h2⟩), g.saved⟩
  | sweep id =>
    refine ⟨g.ok, ?_, g.saved⟩
    intro d hd
    rcases List.mem_append.1 hd with hd | hd
    · exact (g.placed d hd).call (fun _ => _root_.id) (fun _ hh => Or.inl hh) (fun _ h1 h2 => ⟨h1, h2⟩)
    · simp at hd; rw [hd]; trivial
  | disp i =>
    simp only
    split
    · exact g
    · next d e =>
      have hd := split_at e
      have hpd := g.placed d (by rw [hd]; simp)
      have hlr : ∀ x ∈ s.disp.take i ++ s.disp.drop (i + 1), Placed rid s x := by
        intro x hx; refine g.placed x ?_; rw [hd]; simp only [List.mem_append, List.mem_cons] at hx ⊢; grind
      -- The state changes at most in the map and the timers.
      have finish : ∀ (s' : St) (o : Option Disp), s'.pc = s.pc → s'.crashed = false →
          (∀ k c, s'.map k = some c → s.map k = some c) → (∀ x, o = some x → Placed rid s x) →
          Good rid { s' with disp := s.disp.take i ++ o.toList ++ s.disp.drop (i + 1) } := by
        intro s' o hpc hcr hm ho
        refine ⟨hcr, ?_, fun k c hk => by rw [hpc]; exact g.saved k c (hm k c hk)⟩
        intro x hx
        have : Placed rid s x := by
          simp only [List.mem_append, Option.mem_toList] at hx
          rcases hx with (hx | hx) | hx
          · exact hlr x (by simp [hx])
          · exact ho x hx
          · exact hlr x (by simp [hx])
        exact this.call (fun c hc => by simpa [hpc] using hc) (fun c hc => Or.inl (by simpa [hpc] using hc))
          (fun c h1 h2 => by simpa [hpc] using ⟨h1, h2⟩)
      have hunm : ∀ id k c, upd s.map id none k = some c → s.map k = some c := by
        intro id k c hk
        by_cases ek : k = id
        · subst ek; simp at hk
        · rwa [upd_ne _ _ ek] at hk
      cases d with
      | reclaim id w =>
        simp only [dispStep]
        split
        · exact finish s none rfl g.ok (fun _ _ => _root_.id) (by simp)
        · next c hm =>
          refine finish { s with map := upd s.map id none } (some (.lock c w)) rfl g.ok (hunm id) ?_
          intro x hx; cases hx
          have hcc := h.count c
          have hk := h.key _ _ hm
          subst hk
          constructor <;> intro hp <;> simp [hp, Pc.active, St.inMap, hm] at hcc
      | lock c w =>
        simp only [dispStep]
        split
        · exact finish s _ rfl g.ok (fun _ _ => _root_.id) (by intro x hx; cases hx; exact hpd)
        · next hl =>
          refine finish s _ rfl g.ok (fun _ _ => _root_.id) ?_
          intro x hx; cases hx
          have hrej : s.pc c ≠ .rejected := by
            intro hp
            have h1 := h.rej c hp
            have h2 := h.count c
            have h3 : 0 < s.disp.countP (Disp.owns c) :=
              List.countP_pos_iff.2 ⟨.lock c w, by rw [hd]; simp, by simp [Disp.owns]⟩
            rw [hp] at h2; simp only [Pc.active] at h2; omega
          obtain ⟨h1, h2⟩ := hpd
          unfold St.locked at hl
          unfold Placed
          clear hd hlr finish e
          cases hp : s.pc c <;> rw [hp] at h1 h2 hl hrej <;> simp [hp] at h1 h2 hl hrej ⊢
      | response id =>
        simp only [dispStep]
        split
        · exact finish s none rfl g.ok (fun _ _ => _root_.id) (by simp)
        · next c hm =>
          refine finish { s with map := upd s.map id none } (some (.use c)) rfl g.ok (hunm id) ?_
          intro x hx; cases hx
          exact hpd c (h.key _ _ hm)
      | use c =>
        have hpd : s.pc c = .sent := hpd
        simp only [dispStep, hpd, reduceCtorEq, if_false]
        refine finish s (some (.kill c .ok)) rfl g.ok (fun _ _ => _root_.id) ?_
        intro x hx; cases hx; exact Or.inr hpd
      | kill c w =>
        simp only [dispStep]
        split
        · exact finish { s with timer := upd s.timer c .killed } _ rfl g.ok (fun _ _ => _root_.id)
            (by intro x hx; cases hx; exact hpd)
        · exact finish s _ rfl g.ok (fun _ _ => _root_.id) (by intro x hx; cases hx; exact hpd)
      | complete c w =>
        have hl : s.locked c = false := by rcases hpd with hp | hp <;> simp [St.locked, hp]
        simp only [dispStep, hl, Bool.false_eq_true, if_false]
        exact finish s none rfl g.ok (fun _ _ => _root_.id) (by simp)

/-- **C42.** With distinct request ids, and if responses arrive only for requests that have been sent, the connector
does not crash. -/
theorem C42_no_crash (hr : ∀ c c', rid c = rid c' → c = c') (hs : Sane rid as) :
    (run rid init [] as).1.crashed = false := by
  have key : ∀ (bs as : List Act), Sane rid (as ++ bs) → Inv rid (run rid init [] as).1 (run rid init [] as).2 →
      Good rid (run rid init [] as).1 → Good rid (run rid init [] (as ++ bs)).1 := by
    intro bs
    induction bs with
    | nil => intro as _ _ g; rwa [List.append_nil]
    | cons a bs ih =>
      intro as hs h g
      have hrun : run rid init [] (as ++ [a]) = ((step rid (run rid init [] as).1 a).1,
          (run rid init [] as).2 ++ (step rid (run rid init [] as).1 a).2) := by rw [run_append]; rfl
      have g' := g.step h hr a (fun id e c hc => hs as bs id (by rw [e]) c hc)
      have h' := h.step a g'.ok
      have := ih (as ++ [a]) (by simpa using hs) (by rw [hrun]; exact h') (by rw [hrun]; exact g')
      simpa using this
  have g := key as [] (by simpa using hs) (inv_init rid) ⟨rfl, by simp [run, init], by simp [run, init]⟩
  simpa using g.ok

/-- Non-vacuity: a response, a timeout, a closed connection, and a response that comes too late. -/
example : (run id init [] [.call 1, .call 1, .call 1, .call 1, .call 1, .call 1, .call 2, .call 2, .call 2, .call 2,
      .call 2, .call 2, .response 1, .disp 0, .disp 0, .fire 2, .response 2, .disp 1, .disp 0, .disp 0, .disp 1,
      .disp 0, .disp 0, .disp 0, .close, .call 3]).2 =
    [.sent 1, .sent 2, .responded 1, .fired 2, .responded 2, .done 1 .ok, .done 2 .timeout, .closed,
      .done 3 .network] := by decide +kernel

/-! ## C43 -/

/-- **C43 is false.** A response for a request that is just being made: `MessageHandleFunction` takes the context from
the map without waiting for its lock and uses the fields before they are written. -/
theorem C43_early_response_crashes :
    (run id init [] [.call 1, .call 1, .response 1, .disp 0, .disp 0]).2 = [.responded 1, .crash] := by decide +kernel

/-- **C43 is false.** The same a little later: the context is destroyed while `SaveCallContext` is still using it. -/
theorem C43_context_destroyed_in_use :
    (run id init [] [.call 1, .call 1, .call 1, .response 1, .disp 0, .disp 0, .disp 0, .disp 0]).2 =
      [.responded 1, .done 1 .ok, .crash] := by decide +kernel

/-- **C43 is false.** A reused request id: the timer of the first call, whose callback is already running when the
response arrives, reports a timeout to the second call. -/
theorem C43_stale_timer (k : Nat) :
    (run (fun _ => k) init [] [.call 1, .call 1, .call 1, .call 1, .call 1, .call 1, .fire 1, .response k, .disp 1,
      .disp 1, .disp 1, .disp 1, .call 2, .call 2, .call 2, .call 2, .call 2, .call 2, .disp 0, .disp 0, .disp 0,
      .disp 0]).2 =
      [.sent 1, .fired 1, .responded k, .done 1 .ok, .sent 2, .done 2 .timeout] := by
  simp [run, step, init, callStep, dispStep, upd, St.locked]

end Verif.Transport.Connector
