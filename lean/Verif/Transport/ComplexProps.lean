import Verif.Transport.Complex

/-!
# C102, C103: multiplexed connections of the future client transport

Everything is stated with `done`, the results that callers get, and with the requests that wait.
-/

namespace Verif.Transport.Complex

/-- Message `m` waits for an answer until `due`. -/
def Waits (s : S) (c : Cfg) (m due : Nat) : Prop := s.q (c.rid m) = some (m, due)

def S.got (s : S) : List Nat := s.done.map (·.1)

/-- `L`: messages that were sent, do not wait and have no result. -/
structure Inv (c : Cfg) (udp : Bool) (L : List Nat) (s : S) : Prop where
  own : ∀ id m due, s.q id = some (m, due) → c.rid m = id ∧ s.sent m ≠ none ∧ m ∉ s.got ∧ m ∉ L
  nd : s.got.Nodup
  fin : ∀ m, m ∈ s.got → s.sent m ≠ none ∧ m ∉ L
  lim : ∀ m, m ∈ L → s.sent m ≠ none
  ndL : L.Nodup
  all : ∀ m, s.sent m ≠ none → m ∈ L ∨ m ∈ s.got ∨ ∃ due, Waits s c m due
  prom : ∀ m, s.prom m = true → c.first m = true ∧ (c.delay (c.call m)).isSome ∧ s.tmo (c.call m) = c.time (c.call m) ∧ c.call m ∉ s.todo
  plain : ∀ k, c.delay k = none → s.tmo k = c.time k ∧ k ∉ s.todo
  fresh : ∀ m, c.first m = true → (c.delay (c.call m)).isSome → s.sent m = none → s.prom m = true
  due : ∀ m t due, Waits s c m due → s.sent m = some t → (s.prom m = true → c.delay (c.call m) = some (due - t) ∧ t ≤ due) ∧
    (s.prom m = false → c.first m = true → due = t + c.time (c.call m) + s.late m)
  late : ∀ m, s.late m ≠ 0 → (c.delay (c.call m)).isSome
  early : ∀ m, s.sent m = none ∨ s.prom m = true → s.late m = 0
  sound : udp = false → s.crash = false

theorem Inv.init (c : Cfg) (udp : Bool) : Inv c udp [] (.init c) := by
  refine ⟨?_, List.nodup_nil, ?_, ?_, List.nodup_nil, ?_, ?_, ?_, ?_, ?_, ?_, ?_, fun _ => rfl⟩
  · intro id m due h; cases h
  · intro m h; cases h
  · intro m h; cases h
  · intro m h; exact absurd rfl h
  · intro m h
    have : c.first m = true ∧ (c.delay (c.call m)).isSome = true := by simpa [S.init] using h
    exact ⟨this.1, this.2, rfl, by simp [S.init]⟩
  · intro k _; exact ⟨rfl, by simp [S.init]⟩
  · intro m h1 h2 _; simp [S.init, h1, h2]
  · intro m t due h; cases h
  · intro m h; exact absurd rfl h
  · intro m _; rfl

variable {c : Cfg} {udp : Bool} {L : List Nat} {s : S}

theorem Inv.finish (hc : c.Ok) (h : Inv c udp L s) {m : Nat} (hm : m ∈ L) (r : Res) : Inv c udp (L.erase m) (s.finish c m r) := by
  have hg : (s.finish c m r).got = s.got ++ [m] := by simp [S.got, S.finish]
  have hmg : m ∉ s.got := fun hh => (h.fin m hh).2 hm
  have hne : ∀ x, x ∈ L.erase m → x ≠ m ∧ x ∈ L := fun x hx => (h.ndL.mem_erase_iff).1 hx
  refine ⟨?_, ?_, ?_, ?_, h.ndL.erase m, ?_, ?_, ?_, ?_, ?_, h.late, ?_, h.sound⟩
  · intro id m' due hq
    obtain ⟨h1, h2, h3, h4⟩ := h.own id m' due hq
    refine ⟨h1, h2, ?_, fun hx => h4 (hne m' hx).2⟩
    rw [hg]
    intro hx
    rcases List.mem_append.1 hx with hx | hx
    · exact h3 hx
    · rw [List.mem_singleton.1 hx] at h4; exact h4 hm
  · rw [hg]
    refine List.nodup_append.2 ⟨h.nd, by simp, ?_⟩
    intro a ha b hb e
    rw [List.mem_singleton.1 hb] at e
    rw [e] at ha; exact hmg ha
  · intro m' hx
    rw [hg] at hx
    rcases List.mem_append.1 hx with hx | hx
    · exact ⟨(h.fin m' hx).1, fun hy => (h.fin m' hx).2 (hne m' hy).2⟩
    · rw [List.mem_singleton.1 hx]; exact ⟨h.lim m hm, fun hy => (hne m hy).1 rfl⟩
  · intro m' hx; exact h.lim m' (hne m' hx).2
  · intro m' hs
    rcases h.all m' hs with hx | hx | hx
    · by_cases e : m' = m
      · right; left; rw [hg, e]; simp
      · left; exact (h.ndL.mem_erase_iff).2 ⟨e, hx⟩
    · right; left; rw [hg]; exact List.mem_append_left _ hx
    · right; right; exact hx
  · intro m' hp
    have hp' : upd s.prom m false m' = true := hp
    by_cases e : m' = m
    · rw [e, upd_same] at hp'; cases hp'
    · rw [upd_ne _ _ e] at hp'
      obtain ⟨h1, h2, h3, h4⟩ := h.prom m' hp'
      refine ⟨h1, h2, h3, ?_⟩
      show c.call m' ∉ (if _ then _ else _)
      split
      · rename_i hpm
        have hpm : s.prom m = true := by simp at hpm; exact hpm.1
        intro hx
        rcases List.mem_append.1 hx with hx | hx
        · exact h4 hx
        · exact e (hc.one m' m h1 (h.prom m hpm).1 (List.mem_singleton.1 hx))
      · exact h4
  · intro k hk
    obtain ⟨h1, h2⟩ := h.plain k hk
    refine ⟨h1, ?_⟩
    show k ∉ (if _ then _ else _)
    split
    · rename_i hpm
      have hpm : s.prom m = true := by simp at hpm; exact hpm.1
      intro hx
      rcases List.mem_append.1 hx with hx | hx
      · exact h2 hx
      · have := (h.prom m hpm).2.1
        rw [← List.mem_singleton.1 hx, hk] at this; cases this
    · exact h2
  · intro m' h1 h2 h3
    have : m' ≠ m := by intro e; rw [e] at h3; exact h.lim m hm h3
    show upd s.prom m false m' = true
    rw [upd_ne _ _ this]; exact h.fresh m' h1 h2 h3
  · intro m' t due hw hs
    obtain ⟨h1, h2, h3, h4⟩ := h.own _ m' due hw
    have : m' ≠ m := by intro e; rw [e] at h4; exact h4 hm
    show (upd s.prom m false m' = true → _) ∧ (upd s.prom m false m' = false → _)
    rw [upd_ne _ _ this]; exact h.due m' t due hw hs
  · intro m' hx
    rcases hx with hx | hx
    · exact h.early m' (.inl hx)
    · have hp' : upd s.prom m false m' = true := hx
      by_cases e : m' = m
      · rw [e, upd_same] at hp'; cases hp'
      · rw [upd_ne _ _ e] at hp'; exact h.early m' (.inr hp')

/-- A request is taken out of the queue. -/
theorem Inv.take (h : Inv c udp L s) {id m due : Nat} (hq : s.q id = some (m, due)) : Inv c udp (m :: L) { s with q := upd s.q id none } := by
  obtain ⟨h1, h2, h3, h4⟩ := h.own id m due hq
  have other : ∀ id' m' due', upd s.q id none id' = some (m', due') → id' ≠ id ∧ s.q id' = some (m', due') := by
    intro id' m' due' hx
    by_cases e : id' = id
    · rw [e, upd_same] at hx; cases hx
    · rw [upd_ne _ _ e] at hx; exact ⟨e, hx⟩
  refine ⟨?_, h.nd, ?_, ?_, List.nodup_cons.2 ⟨h4, h.ndL⟩, ?_, h.prom, h.plain, h.fresh, ?_, h.late, h.early, h.sound⟩
  · intro id' m' due' hx
    obtain ⟨e, hx⟩ := other id' m' due' hx
    obtain ⟨g1, g2, g3, g4⟩ := h.own id' m' due' hx
    refine ⟨g1, g2, g3, ?_⟩
    intro hy
    rcases List.mem_cons.1 hy with hy | hy
    · exact e (by rw [← g1, hy, h1])
    · exact g4 hy
  · intro m' hx
    refine ⟨(h.fin m' hx).1, ?_⟩
    intro hy
    rcases List.mem_cons.1 hy with hy | hy
    · rw [hy] at hx; exact h3 hx
    · exact (h.fin m' hx).2 hy
  · intro m' hx
    rcases List.mem_cons.1 hx with hx | hx
    · rw [hx]; exact h2
    · exact h.lim m' hx
  · intro m' hs
    rcases h.all m' hs with hx | hx | ⟨due', hx⟩
    · left; exact List.mem_cons_of_mem _ hx
    · right; left; exact hx
    · by_cases e : m' = m
      · left; rw [e]; simp
      · right; right
        refine ⟨due', ?_⟩
        show upd s.q id none (c.rid m') = _
        rw [upd_ne]
        · exact hx
        · intro e2
          have hx : s.q (c.rid m') = _ := hx
          rw [e2, hq] at hx
          cases hx; exact e rfl
  · intro m' t due' hw hs
    exact h.due m' t due' (other _ _ _ hw).2 hs

/-- `Push` of a message that is sent. -/
theorem Inv.push (hc : c.Ok) (h : Inv c udp L s) {m now : Nat} {over : Bool} (hm : m ∈ L)
    (hd : (s.prom m = true → s.sent m = some now) ∧ (s.prom m = false → c.first m = true → ∀ t, s.sent m = some t → now + s.tmo (c.call m) = t + c.time (c.call m) + s.late m)) :
    ((s.push c m now over).2 = .existed → Inv c udp L (s.push c m now over).1) ∧ ((s.push c m now over).2 ≠ .existed → Inv c udp (L.erase m) (s.push c m now over).1) ∧
    ((s.push c m now over).2 = .existed → (c.delay (c.call m)).isSome) ∧ ((s.push c m now over).2 = .existed → s.q (c.rid m) ≠ none) := by
  have hne : ∀ x, x ∈ L.erase m → x ≠ m ∧ x ∈ L := fun x hx => (h.ndL.mem_erase_iff).1 hx
  unfold S.push
  split
  · exact ⟨(by intro e; cases e), fun _ => h.finish hc hm _, (by intro e; cases e), (by intro e; cases e)⟩
  · split
    · rename_i hq
      split
      · rename_i hds
        exact ⟨fun _ => h, fun e => absurd rfl e, fun _ => hds, fun _ => (by rw [hq]; intro e; cases e)⟩
      · exact ⟨(by intro e; cases e), fun _ => h.finish hc hm _, (by intro e; cases e), (by intro e; cases e)⟩
    · rename_i hq
      refine ⟨(by intro e; cases e), fun _ => ?_, (by intro e; cases e), (by intro e; cases e)⟩
      dsimp only
      refine ⟨?_, h.nd, ?_, ?_, h.ndL.erase m, ?_, h.prom, h.plain, h.fresh, ?_, h.late, h.early, h.sound⟩
      · intro id m' due hx
        have hx : upd s.q (c.rid m) _ id = _ := hx
        by_cases e : id = c.rid m
        · rw [e, upd_same] at hx
          cases hx
          exact ⟨e.symm, h.lim m hm, fun hy => (h.fin m hy).2 hm, fun hy => (hne m hy).1 rfl⟩
        · rw [upd_ne _ _ e] at hx
          obtain ⟨g1, g2, g3, g4⟩ := h.own id m' due hx
          exact ⟨g1, g2, g3, fun hy => g4 (hne m' hy).2⟩
      · intro m' hx
        exact ⟨(h.fin m' hx).1, fun hy => (h.fin m' hx).2 (hne m' hy).2⟩
      · intro m' hx; exact h.lim m' (hne m' hx).2
      · intro m' hs
        rcases h.all m' hs with hx | hx | ⟨due', hx⟩
        · by_cases e : m' = m
          · right; right
            exact ⟨now + if s.prom m = true then (c.delay (c.call m)).getD 0 else s.tmo (c.call m), by show upd s.q (c.rid m) _ (c.rid m') = _; rw [e, upd_same]⟩
          · left; exact (h.ndL.mem_erase_iff).2 ⟨e, hx⟩
        · right; left; exact hx
        · right; right
          refine ⟨due', ?_⟩
          show upd s.q (c.rid m) _ (c.rid m') = _
          rw [upd_ne]
          · exact hx
          · intro e2
            have hx : s.q (c.rid m') = _ := hx
            rw [e2, hq] at hx; cases hx
      · intro m' t due hw hs
        have hw : upd s.q (c.rid m) _ (c.rid m') = _ := hw
        by_cases e : c.rid m' = c.rid m
        · rw [e, upd_same] at hw
          cases hw
          have hs : s.sent m = some t := hs
          constructor
          · intro hp
            have hp : s.prom m = true := hp
            rw [if_pos hp]
            have h1 := hd.1 hp
            rw [hs] at h1
            cases h1
            obtain ⟨d, hd'⟩ := Option.isSome_iff_exists.1 (h.prom m hp).2.1
            rw [hd']
            refine ⟨?_, by omega⟩
            show some d = some (now + d - now)
            rw [Nat.add_sub_cancel_left]
          · intro hp hf
            have hp : s.prom m = false := hp
            rw [if_neg (by rw [hp]; decide)]
            exact hd.2 hp hf t hs
        · rw [upd_ne _ _ e] at hw
          exact h.due m' t due hw hs

theorem Inv.pop (hc : c.Ok) (h : Inv c udp L s) (id : Nat) (r : Res) : Inv c udp L (s.pop c id r) := by
  unfold S.pop
  split
  · exact h
  · rename_i m due hq
    have := (h.take hq).finish hc (List.mem_cons_self) r
    rwa [List.erase_cons_head] at this

theorem Inv.fail (hc : c.Ok) (h : Inv c udp L s) (ids : List Nat) : Inv c udp L (s.fail c ids) := by
  induction ids generalizing s with
  | nil => exact h
  | cons id ids ih => exact ih (h.pop hc id .network)

theorem Inv.start (h : Inv c udp L s) {m : Nat} (now : Nat) (hs : s.sent m = none) : Inv c udp (m :: L) { s with sent := upd s.sent m (some now) } := by
  have keep : ∀ m', s.sent m' ≠ none → upd s.sent m (some now) m' ≠ none := by
    intro m' hx; unfold upd; split
    · intro e; cases e
    · exact hx
  have hmL : m ∉ L := fun hx => h.lim m hx hs
  have hmg : m ∉ s.got := fun hx => (h.fin m hx).1 hs
  refine ⟨?_, h.nd, ?_, ?_, List.nodup_cons.2 ⟨hmL, h.ndL⟩, ?_, h.prom, h.plain, ?_, ?_, h.late, ?_, h.sound⟩
  · intro id m' due hx
    obtain ⟨g1, g2, g3, g4⟩ := h.own id m' due hx
    refine ⟨g1, keep m' g2, g3, ?_⟩
    intro hy
    rcases List.mem_cons.1 hy with hy | hy
    · rw [hy] at g2; exact g2 hs
    · exact g4 hy
  · intro m' hx
    refine ⟨keep m' (h.fin m' hx).1, ?_⟩
    intro hy
    rcases List.mem_cons.1 hy with hy | hy
    · rw [hy] at hx; exact hmg hx
    · exact (h.fin m' hx).2 hy
  · intro m' hx
    rcases List.mem_cons.1 hx with hx | hx
    · show upd _ _ _ _ ≠ none; rw [hx, upd_same]; intro e; cases e
    · exact keep m' (h.lim m' hx)
  · intro m' hx
    by_cases e : m' = m
    · left; rw [e]; simp
    · have hx : upd s.sent m (some now) m' ≠ none := hx
      rw [upd_ne _ _ e] at hx
      rcases h.all m' hx with hx | hx | hx
      · left; exact List.mem_cons_of_mem _ hx
      · right; left; exact hx
      · right; right; exact hx
  · intro m' h1 h2 h3
    have h3 : upd s.sent m (some now) m' = none := h3
    by_cases e : m' = m
    · rw [e, upd_same] at h3; cases h3
    · rw [upd_ne _ _ e] at h3; exact h.fresh m' h1 h2 h3
  · intro m' t due hw hx
    have hx : upd s.sent m (some now) m' = some t := hx
    by_cases e : m' = m
    · rw [e] at hw
      exact absurd hs (h.own _ _ _ hw).2.1
    · rw [upd_ne _ _ e] at hx; exact h.due m' t due hw hx
  · intro m' hx
    rcases hx with hx | hx
    · have hx : upd s.sent m (some now) m' = none := hx
      by_cases e : m' = m
      · rw [e, upd_same] at hx; cases hx
      · rw [upd_ne _ _ e] at hx; exact h.early m' (.inl hx)
    · exact h.early m' (.inr hx)

/-- What `Push` needs for a message that is sent now. -/
theorem Inv.start_due (h : Inv c udp L s) {m : Nat} (now : Nat) (hs : s.sent m = none) :
    (({ s with sent := upd s.sent m (some now) } : S).prom m = true → ({ s with sent := upd s.sent m (some now) } : S).sent m = some now) ∧
    (({ s with sent := upd s.sent m (some now) } : S).prom m = false → c.first m = true → ∀ t, ({ s with sent := upd s.sent m (some now) } : S).sent m = some t →
      now + ({ s with sent := upd s.sent m (some now) } : S).tmo (c.call m) = t + c.time (c.call m) + ({ s with sent := upd s.sent m (some now) } : S).late m) := by
  refine ⟨fun _ => upd_same _ _ _, ?_⟩
  intro hp hf t ht
  have ht : upd s.sent m (some now) m = some t := ht
  rw [upd_same] at ht
  cases ht
  have hp : s.prom m = false := hp
  have hl : s.late m = 0 := h.early m (.inl hs)
  have hn : c.delay (c.call m) = none := by
    cases hd : c.delay (c.call m) with
    | none => rfl
    | some d => rw [h.fresh m hf (by rw [hd]; rfl) hs] at hp; cases hp
  show now + s.tmo _ = now + _ + s.late m
  rw [(h.plain _ hn).1, hl]
  rfl

theorem Inv.send (hc : c.Ok) (h : Inv c udp L s) {m now : Nat} (hs : s.sent m = none) (over : Bool) (net : Net) :
    Inv c udp L (({ s with sent := upd s.sent m (some now) } : S).send c m now over net) := by
  have hL := h.start now hs
  have key := hL.push hc (m := m) (now := now) (over := over) List.mem_cons_self (h.start_due now hs)
  rw [List.erase_cons_head] at key
  unfold S.send
  cases net with
  | none =>
    have := hL.finish hc (m := m) List.mem_cons_self .connect
    rwa [List.erase_cons_head] at this
  | ok =>
    dsimp only
    rcases hp : S.push _ c m now over with ⟨s1, r⟩
    rw [hp] at key
    cases r with
    | ok => exact key.2.1 (by intro e; cases e)
    | error => exact key.2.1 (by intro e; cases e)
    | existed =>
      have := (key.1 rfl).finish hc (m := m) List.mem_cons_self .merged
      rwa [List.erase_cons_head] at this
  | bad ids =>
    dsimp only
    rcases hp : S.push _ c m now over with ⟨s1, r⟩
    rw [hp] at key
    cases r with
    | ok => exact ((key.2.1 (by intro e; cases e)).fail hc ids).pop hc _ _
    | error => exact key.2.1 (by intro e; cases e)
    | existed =>
      have := ((key.1 rfl).fail hc ids).finish hc (m := m) List.mem_cons_self .merged
      rwa [List.erase_cons_head] at this

theorem Inv.sendUdp (hc : c.Ok) (h : Inv c udp L s) {m now : Nat} (hs : s.sent m = none) (over : Bool) (net : Net) :
    (Inv c udp L (({ s with sent := upd s.sent m (some now) } : S).sendUdp c m now over net)) ∨
    ((c.delay (c.call m)).isSome ∧ Inv c udp (m :: L) (({ s with sent := upd s.sent m (some now) } : S).sendUdp c m now over net)) := by
  have hL := h.start now hs
  have key := hL.push hc (m := m) (now := now) (over := over) List.mem_cons_self (h.start_due now hs)
  rw [List.erase_cons_head] at key
  unfold S.sendUdp
  cases net with
  | none =>
    have := hL.finish hc (m := m) List.mem_cons_self .connect
    rw [List.erase_cons_head] at this
    exact .inl this
  | ok =>
    dsimp only
    rcases hp : S.push _ c m now over with ⟨s1, r⟩
    rw [hp] at key
    cases r with
    | ok => exact .inl (key.2.1 (by intro e; cases e))
    | error => exact .inl (key.2.1 (by intro e; cases e))
    | existed => exact .inr ⟨key.2.2.1 rfl, key.1 rfl⟩
  | bad ids =>
    dsimp only
    rcases hp : S.push _ c m now over with ⟨s1, r⟩
    rw [hp] at key
    cases r with
    | ok => exact .inl (((key.2.1 (by intro e; cases e)).fail hc ids).pop hc _ _)
    | error => exact .inl (key.2.1 (by intro e; cases e))
    | existed => exact .inr ⟨key.2.2.1 rfl, key.1 rfl⟩

theorem Inv.fire (hc : c.Ok) (h : Inv c udp L s) {id now m due : Nat} (over : Bool) (hq : s.q id = some (m, due)) (hd : due ≤ now) : Inv c udp L (s.fire c id now over) := by
  unfold S.fire
  rw [hq]
  dsimp only
  obtain ⟨hr, hsent, hng, hnL⟩ := h.own id m due hq
  split
  · rename_i hp
    obtain ⟨p1, p2, p3, p4⟩ := h.prom m hp
    obtain ⟨d, hdl⟩ := Option.isSome_iff_exists.1 p2
    have hlt := hc.delay _ _ hdl
    rw [hdl]
    dsimp only [Option.getD_some]
    rw [if_neg (by rw [p3]; omega)]
    have ht := h.take hq
    obtain ⟨t, hst⟩ := Option.ne_none_iff_exists'.1 hsent
    have hdue := (h.due m t due (by show s.q (c.rid m) = _; rw [hr]; exact hq) hst).1 hp
    rw [hdl] at hdue
    have hdd : d = due - t := Option.some.inj hdue.1
    -- the state in which the message is pushed again
    have h2 : Inv c udp (m :: L) { s with q := upd s.q id none, prom := upd s.prom m false, todo := s.todo ++ [c.call m], late := upd s.late m (now - due),
                                          tmo := upd s.tmo (c.call m) (s.tmo (c.call m) - d) } := by
      refine ⟨ht.own, ht.nd, ht.fin, ht.lim, ht.ndL, ht.all, ?_, ?_, ?_, ?_, ?_, ?_, ht.sound⟩
      · intro m' hp'
        have hp' : upd s.prom m false m' = true := hp'
        by_cases e : m' = m
        · rw [e, upd_same] at hp'; cases hp'
        · rw [upd_ne _ _ e] at hp'
          obtain ⟨g1, g2, g3, g4⟩ := h.prom m' hp'
          have hk : c.call m' ≠ c.call m := fun e2 => e (hc.one m' m g1 p1 e2)
          refine ⟨g1, g2, ?_, ?_⟩
          · show upd s.tmo _ _ _ = _; rw [upd_ne _ _ hk]; exact g3
          · intro hx
            rcases List.mem_append.1 hx with hx | hx
            · exact g4 hx
            · exact hk (List.mem_singleton.1 hx)
      · intro k hk
        have hne : k ≠ c.call m := by intro e; rw [e, hdl] at hk; cases hk
        obtain ⟨g1, g2⟩ := h.plain k hk
        refine ⟨?_, ?_⟩
        · show upd s.tmo _ _ _ = _; rw [upd_ne _ _ hne]; exact g1
        · intro hx
          rcases List.mem_append.1 hx with hx | hx
          · exact g2 hx
          · exact hne (List.mem_singleton.1 hx)
      · intro m' h1 h2 h3
        have : m' ≠ m := by intro e; rw [e] at h3; exact hsent h3
        show upd s.prom m false m' = true
        rw [upd_ne _ _ this]; exact h.fresh m' h1 h2 h3
      · intro m' t' due' hw hx
        have hne : m' ≠ m := fun e => (ht.own _ _ _ hw).2.2.2 (by rw [e]; simp)
        have := ht.due m' t' due' hw hx
        show (upd s.prom m false m' = true → _) ∧ (upd s.prom m false m' = false → _ → due' = t' + _ + upd s.late m _ m')
        rw [upd_ne _ _ hne, upd_ne _ _ hne]; exact this
      · intro m' hx
        have hx : upd s.late m _ m' ≠ 0 := hx
        by_cases e : m' = m
        · rw [e, hdl]; rfl
        · rw [upd_ne _ _ e] at hx; exact h.late m' hx
      · intro m' hx
        have hne : m' ≠ m := by
          intro e
          rcases hx with hx | hx
          · rw [e] at hx; exact hsent hx
          · have hx : upd s.prom m false m' = true := hx
            rw [e, upd_same] at hx; cases hx
        show upd s.late m _ m' = 0
        rw [upd_ne _ _ hne]
        refine h.early m' (hx.imp (fun hx => hx) fun hx => ?_)
        have hx : upd s.prom m false m' = true := hx
        rwa [upd_ne _ _ hne] at hx
    have hdue2 := h2.push hc (m := m) (now := now) (over := over) List.mem_cons_self ⟨?_, ?_⟩
    · rw [List.erase_cons_head] at hdue2
      apply hdue2.2.1
      intro e
      exact hdue2.2.2.2 e (by show upd s.q id none (c.rid m) = none; rw [hr, upd_same])
    · intro hx
      have hx : upd s.prom m false m = true := hx
      rw [upd_same] at hx; cases hx
    · intro _ _ t' ht'
      have ht' : s.sent m = some t' := ht'
      rw [hst] at ht'
      cases ht'
      show now + upd s.tmo (c.call m) _ (c.call m) = t + _ + upd s.late m _ m
      rw [upd_same, upd_same, p3]
      have := hdue.2
      omega
  · have := (h.take hq).finish hc (m := m) List.mem_cons_self .timeout
    rwa [List.erase_cons_head] at this

theorem Inv.resend (h : Inv c udp L s) {k : Nat} (n : Nat) (hk : k ∈ s.todo) : Inv c udp L (s.resend c k n) := by
  refine ⟨h.own, h.nd, h.fin, h.lim, h.ndL, h.all, ?_, ?_, h.fresh, h.due, h.late, h.early, h.sound⟩
  · intro m hp
    obtain ⟨h1, h2, h3, h4⟩ := h.prom m hp
    refine ⟨h1, h2, ?_, fun hx => h4 ((List.mem_filter.1 hx).1)⟩
    show upd s.tmo k _ _ = _
    rw [upd_ne]
    · exact h3
    · intro e; rw [e] at h4; exact h4 hk
  · intro k' hd
    obtain ⟨h1, h2⟩ := h.plain k' hd
    refine ⟨?_, fun hx => h2 ((List.mem_filter.1 hx).1)⟩
    show upd s.tmo k _ _ = _
    rw [upd_ne]
    · exact h1
    · intro e; rw [e] at h2; exact h2 hk

/-- The messages that are lost: none on TCP, and none if there are no backup requests. -/
theorem Reach.inv (hc : c.Ok) (h : Reach c udp s) : ∃ L, Inv c udp L s ∧ (udp = false → L = []) ∧ ∀ m ∈ L, (c.delay (c.call m)).isSome := by
  induction h with
  | init => exact ⟨[], .init c udp, fun _ => rfl, (by intro m hm; cases hm)⟩
  | step _ hcr hs ih =>
    obtain ⟨L, hL, he, hm⟩ := ih
    cases hs with
    | send m now over net hs hb =>
      cases udp with
      | false => exact ⟨L, hL.send hc hs over net, he, hm⟩
      | true =>
        rcases hL.sendUdp hc hs over net with g | ⟨g1, g2⟩
        · exact ⟨L, g, he, hm⟩
        · refine ⟨m :: L, g2, (by intro e; cases e), ?_⟩
          intro m' hx
          rcases List.mem_cons.1 hx with hx | hx
          · rw [hx]; exact g1
          · exact hm m' hx
    | answer conn id =>
      cases udp with
      | false => exact ⟨L, hL.pop hc id _, he, hm⟩
      | true =>
        refine ⟨L, ?_, he, hm⟩
        rw [if_pos rfl]
        unfold S.answerUdp
        split
        · exact ⟨hL.own, hL.nd, hL.fin, hL.lim, hL.ndL, hL.all, hL.prom, hL.plain, hL.fresh, hL.due, hL.late, hL.early, (by intro e; cases e)⟩
        · exact hL.pop hc id _
    | lost ids => exact ⟨L, hL.fail hc ids, he, hm⟩
    | fire id now over m due hq hd => exact ⟨L, hL.fire hc over hq hd, he, hm⟩
    | resend k n hk => exact ⟨L, hL.resend n hk, he, hm⟩

/-! ## Properties -/

/-- **C102a.** Every message gets at most one result. -/
theorem C102_once (hc : c.Ok) (h : Reach c udp s) : (s.done.map (·.1)).Nodup :=
  let ⟨_, hL, _, _⟩ := h.inv hc
  hL.nd

/-- **C102b.** A message that was sent has a result or waits under its request id, not both; on UDP, if it is of a call without backup requests. -/
theorem C102_waits (hc : c.Ok) (h : Reach c udp s) {m : Nat} (hs : s.sent m ≠ none) (hu : udp = false ∨ c.delay (c.call m) = none) :
    (m ∈ s.done.map (·.1) ∧ ∀ due, ¬ Waits s c m due) ∨ (m ∉ s.done.map (·.1) ∧ ∃ due, Waits s c m due) := by
  obtain ⟨L, hL, he, hm⟩ := h.inv hc
  have hnL : m ∉ L := by
    intro hx
    rcases hu with hu | hu
    · rw [he hu] at hx; cases hx
    · have := hm m hx; rw [hu] at this; cases this
  rcases hL.all m hs with hx | hx | ⟨due, hx⟩
  · exact absurd hx hnL
  · exact .inl ⟨hx, fun due hw => (hL.own _ _ _ hw).2.2.1 hx⟩
  · exact .inr ⟨(hL.own _ _ _ hx).2.2.1, due, hx⟩

/-- **C102c.** The first message of a call waits no longer than the time-out of the call after it was sent, and as much longer as the handler of time-outs was late when the delay of the backup
requests had passed; before that, until the delay has passed. -/
theorem C102_deadline (hc : c.Ok) (h : Reach c udp s) {m t due : Nat} (hf : c.first m = true) (hs : s.sent m = some t) (hw : Waits s c m due) :
    (s.prom m = true ∧ c.delay (c.call m) = some (due - t) ∧ due ≤ t + c.time (c.call m)) ∨
    (s.prom m = false ∧ due = t + c.time (c.call m) + s.late m ∧ (c.delay (c.call m) = none → s.late m = 0)) := by
  obtain ⟨L, hL, -, -⟩ := h.inv hc
  have := hL.due m t due hw hs
  cases hp : s.prom m with
  | true =>
    have h1 := this.1 hp
    have := hc.delay _ _ h1.1
    exact .inl ⟨rfl, h1.1, by omega⟩
  | false =>
    refine .inr ⟨rfl, this.2 hp hf, ?_⟩
    intro hd
    by_cases e : s.late m = 0
    · exact e
    · have := hL.late m e; rw [hd] at this; cases this

/-- **C102d.** A response on a TCP connection gives its result to the message that waits under the request id; if there is none nothing changes. -/
theorem C102_answer (hc : c.Ok) (h : Reach c false s) (conn id : Nat) :
    (s.q id = none ∧ s.answer c conn id = s) ∨
    ∃ m due, Waits s c m due ∧ c.rid m = id ∧ (s.answer c conn id).done = s.done ++ [(m, .answer conn)] ∧ ∀ due', ¬ Waits (s.answer c conn id) c m due' := by
  obtain ⟨L, hL, -, -⟩ := h.inv hc
  unfold S.answer S.pop
  cases hq : s.q id with
  | none => exact .inl ⟨rfl, rfl⟩
  | some x =>
    obtain ⟨m, due⟩ := x
    obtain ⟨h1, h2, h3, h4⟩ := hL.own id m due hq
    refine .inr ⟨m, due, by show s.q (c.rid m) = _; rw [h1]; exact hq, h1, rfl, ?_⟩
    intro due' hw
    have hw : upd s.q id none (c.rid m) = _ := hw
    rw [h1, upd_same] at hw; cases hw

/-- **C102e.** On TCP no assertion fails and no null pointer is used. -/
theorem C102_sound (hc : c.Ok) (h : Reach c false s) : s.crash = false :=
  let ⟨_, hL, _, _⟩ := h.inv hc
  hL.sound rfl

/-! ## Runs -/

/-- Call 0 has backup requests after 10 of 100 ms, its messages are 0 and 1; calls 2, 3, … have one message each. Request ids are the numbers of the calls. -/
def demo : Cfg := ⟨fun m => if m = 1 then 0 else m, fun m => if m = 1 then 0 else m, fun _ => 100, fun k => if k = 0 then some 10 else none, fun m => decide (m ≠ 1)⟩

theorem demo_ok : demo.Ok := by
  refine ⟨?_, ?_, fun k => (by decide : 100 < 2 ^ 32)⟩
  · intro m m' h1 h2 h3
    have h1 : m ≠ 1 := by simpa [demo] using h1
    have h2 : m' ≠ 1 := by simpa [demo] using h2
    simpa [demo, h1, h2] using h3
  · intro k d h
    simp only [demo] at h
    split at h
    · cases h; exact (by decide : 10 < 100)
    · cases h

/-- The backup request is sent and answered: the first message gets the answer. -/
example : ∃ s, Reach demo false s ∧ s.done = [(1, .merged), (0, .answer 7)] := by
  have h := (Reach.init (c := demo) (udp := false)).step rfl (.send 0 1000 false .ok rfl (.inl rfl))
  have h := h.step rfl (.fire 0 1010 false 0 1010 (by decide +kernel) (by decide))
  have h := h.step rfl (.resend 0 1 (by decide +kernel))
  have h := h.step rfl (.send 1 1012 false .ok (by decide +kernel) (.inr (by decide +kernel)))
  have h := h.step rfl (.answer 7 0)
  exact ⟨_, h, by decide +kernel⟩

/-- Nobody answers: the call ends after 100 ms. -/
example : ∃ s, Reach demo false s ∧ s.done = [(1, .merged), (0, .timeout)] := by
  have h := (Reach.init (c := demo) (udp := false)).step rfl (.send 0 1000 false .ok rfl (.inl rfl))
  have h := h.step rfl (.fire 0 1010 false 0 1010 (by decide +kernel) (by decide))
  have h := h.step rfl (.resend 0 1 (by decide +kernel))
  have h := h.step rfl (.send 1 1012 false .ok (by decide +kernel) (.inr (by decide +kernel)))
  have h := h.step rfl (.fire 0 1100 false 0 1100 (by decide +kernel) (by decide))
  exact ⟨_, h, by decide +kernel⟩

/-- **C103a.** On UDP a response that is late, repeated or made up crashes the client. -/
theorem C103_udp_partial (c : Cfg) (conn id : Nat) : ∃ s, Reach c true s ∧ s.crash = true :=
  ⟨_, Reach.init.step rfl (.answer conn id), rfl⟩

/-- **C103b.** A response is given to a request that was sent to another peer, by its id alone. -/
theorem C103_peer_partial (hc : c.Ok) (h : Reach c false s) {m due : Nat} (hw : Waits s c m due) (conn : Nat) : (m, .answer conn) ∈ (s.answer c conn (c.rid m)).done := by
  rcases C102_answer hc h conn (c.rid m) with ⟨h1, -⟩ | ⟨m', due', h1, h2, h3, -⟩
  · have hw : s.q (c.rid m) = _ := hw
    rw [h1] at hw; cases hw
  · have hw : s.q (c.rid m) = _ := hw
    have h1 : s.q (c.rid m') = _ := h1
    rw [h2, hw] at h1
    cases h1
    rw [h3]; simp

/-- **C103c.** If the connection to the backup peer fails, the first message fails with it, although its own peer may still answer; the answer is then thrown away. -/
theorem C103_backup_partial : ∃ s, Reach demo false s ∧ s.done = [(0, .network), (1, .merged)] ∧ ∀ conn, s.answer demo conn 0 = s := by
  have h := (Reach.init (c := demo) (udp := false)).step rfl (.send 0 1000 false .ok rfl (.inl rfl))
  have h := h.step rfl (.fire 0 1010 false 0 1010 (by decide +kernel) (by decide))
  have h := h.step rfl (.resend 0 1 (by decide +kernel))
  have h := h.step rfl (.send 1 1012 false (.bad [0]) (by decide +kernel) (.inr (by decide +kernel)))
  exact ⟨_, h, by decide +kernel, fun conn => rfl⟩

/-- **C103d.** On UDP a backup request gets no result at all. -/
theorem C103_udp_backup_partial : ∃ s, Reach demo true s ∧ s.sent 1 = some 1012 ∧ s.done = [(0, .answer 7)] ∧ s.q 0 = none := by
  have h := (Reach.init (c := demo) (udp := true)).step rfl (.send 0 1000 false .ok rfl (.inl rfl))
  have h := h.step rfl (.fire 0 1010 false 0 1010 (by decide +kernel) (by decide))
  have h := h.step rfl (.resend 0 1 (by decide +kernel))
  have h := h.step rfl (.send 1 1012 false .ok (by decide +kernel) (.inr (by decide +kernel)))
  have h := h.step rfl (.answer 7 0)
  exact ⟨_, h, by decide +kernel, by decide +kernel, by decide +kernel⟩

/-- The same as `demo` with a delay of 60 ms. -/
def slow : Cfg := { demo with delay := fun k => if k = 0 then some 60 else none }

/-- **C103e.** The time-out of the context is lowered by the first message and by each backup message: if the delay is more than half of it, it wraps around, and a backup request that is sent
when the first one has its result waits for 49 days. -/
theorem C103_wrap_partial : ∃ s, Reach slow false s ∧ s.done = [(0, .network)] ∧ Waits s slow 1 (1062 + (2 ^ 32 - 20)) := by
  have h := (Reach.init (c := slow) (udp := false)).step rfl (.send 0 1000 false .ok rfl (.inl rfl))
  have h := h.step rfl (.fire 0 1060 false 0 1060 (by decide +kernel) (by decide))
  have h := h.step rfl (.lost [0])
  have h := h.step rfl (.resend 0 1 (by decide +kernel))
  have h := h.step rfl (.send 1 1062 false .ok (by decide +kernel) (.inr (by decide +kernel)))
  exact ⟨_, h, by decide +kernel, by show _ = _; decide +kernel⟩

/-- **C103f.** `Disconnect` of one address closes the connections to others that contain it. -/
theorem C103_disconnect_partial : disconnect "10.0.0.1".toList ["10.0.0.1:80".toList, "10.0.0.15:80".toList, "110.0.0.1:80".toList, "10.0.0.2:80".toList] = ["10.0.0.2:80".toList] := by
  decide +kernel

end Verif.Transport.Complex
