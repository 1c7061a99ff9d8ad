import Verif.Sync.BlockingInv

/-!
# C112, C113: the blocking buffer of fibers
-/

namespace Verif.Sync.Blocking

/-! ## Specification -/

/-- Nothing happens any more without a new call or the end of a time. -/
def S.quiet (s : S) : Prop := ∀ s', ¬ Step s s'

/-- This fiber sleeps, and rightly so. -/
def S.waits (s : S) : Pc → Prop
  | .az x _ => s.cap < x.length + s.content.length ∧ s.stop = false
  | .vz _ => s.cap ≤ s.content.length
  | .cz n _ => s.content.length < n ∧ s.stop = false
  | _ => False

/-! ## C112 -/

/-- Bytes come out in the order in which they went in, none twice and none lost, whatever the number of fibers. -/
theorem C112_fifo {single : Bool} {cap n : Nat} {s : S} (h : Reach single cap n s) : s.put = s.got ++ s.content := by
  induction h with
  | init => rfl
  | call h hc ih => cases hc <;> exact ih
  | timeout h ht ih => cases ht <;> exact ih
  | step h hs ih =>
    cases hs with
    | al i x t h | axl i x h | vl i x h => split <;> simp [S.at, S.add, ih]
    | cl i n t h => split <;> (try split) <;> simp [S.at, S.take, ih]
    | cxl i n h => split <;> simp [S.at, S.take, ih]
    | _ => exact ih

/-- What is added fits into the capacity as long as the buffer is not stopped. -/
theorem C112_capacity {s s' : S} (h : Step s s') (hs : s.stop = false) (hl : s.content.length < s'.content.length) : s'.content.length ≤ s'.cap := by
  cases h with
  | al i x t h | axl i x h =>
    split at hl <;> rename_i hc
    · rw [if_pos hc]
      simp [S.canAppend, hs] at hc
      simp [S.at, S.add]; omega
    · simp [S.at] at hl
  | vl i x h =>
    split at hl <;> rename_i hc
    · rw [if_pos hc]
      simp [S.at, S.add]; omega
    · simp [S.at] at hl
  | cl i n t h => split at hl <;> (try split at hl) <;> simp [S.at, S.take] at hl <;> omega
  | cxl i n h => split at hl <;> simp [S.at, S.take] at hl <;> omega
  | _ => simp [S.at] at hl

/-- `AppendAlways` is never called, and never goes on, with nothing to append. -/
def Full : Pc → Prop
  | .vq x | .vl x | .vs x | .vz x => x ≠ []
  | _ => True

theorem full_set {l : List Pc} (h : ∀ (j : Nat) (p : Pc), l[j]? = some p → Full p) {i : Nat} {b : Pc} (hb : Full b) : ∀ (j : Nat) (p : Pc), (l.set i b)[j]? = some p → Full p := by
  intro j p hp
  rcases get_set hp with ⟨rfl, rfl⟩ | ⟨hj, hp⟩
  · exact hb
  · exact h j p hp

theorem full_notify {w : Pc → Option Pc} (hw : ∀ p q, w p = some q → Full p → Full q) {l l' : List Pc} (h : ∀ (j : Nat) (p : Pc), l[j]? = some p → Full p) (hn : Notify w l l') :
    ∀ (j : Nat) (p : Pc), l'[j]? = some p → Full p := by
  cases hn with
  | one j p q hj hq => exact full_set h (hw p q hq (h j p hj))
  | none _ => exact h

theorem fullA (p q : Pc) (h : wakeA p = some q) (hp : Full p) : Full q := by
  cases p <;> simp [wakeA] at h <;> subst h <;> first | exact hp | trivial

theorem fullC (p q : Pc) (h : wakeC p = some q) (hp : Full p) : Full q := by
  cases p <;> simp [wakeC] at h <;> subst h <;> first | exact hp | trivial

theorem Reach.full {single : Bool} {cap n : Nat} {s : S} (h : Reach single cap n s) : ∀ (j : Nat) (p : Pc), s.pc[j]? = some p → Full p := by
  induction h with
  | init =>
    intro j p h
    simp [S.init, List.getElem?_replicate] at h
    rw [← h.2]; trivial
  | call h hc ih =>
    cases hc with
    | appendAlways i x hx h h1 => exact full_set ih hx
    | setCap i c h h1 => exact full_set ih (by split <;> trivial)
    | _ => exact full_set ih trivial
  | timeout h ht ih => cases ht <;> exact full_set ih trivial
  | step h hs ih =>
    cases hs with
    | al i x t h | axl i x h => split <;> exact full_set ih trivial
    | vl i x h =>
      split
      · exact full_set ih trivial
      · exact full_set ih (show Full (.vs x) from (ih _ _ h : Full (.vl x)))
    | cl i n t h => split <;> (try split) <;> exact full_set ih trivial
    | cxl i n h => split <;> exact full_set ih trivial
    | vq i x h => exact full_set ih (b := .vl x) (ih i _ h : Full (.vq x))
    | vs i x h => exact full_set ih (b := .vz x) (ih i _ h : Full (.vs x))
    | an i x l h hn => exact full_notify fullC (full_set ih (by split <;> first | trivial | assumption)) hn
    | cn i l h hn | kn i l h hn => exact full_notify fullA (full_set ih (b := .idle) trivial) hn
    | s2 i l h hn => exact full_notify fullA (full_set ih (b := .s3) trivial) hn
    | s3 i l h hn => exact full_notify fullC (full_set ih (b := .idle) trivial) hn
    | _ => exact full_set ih trivial

/-- How much a fiber can still do. -/
def work : Pc → Nat
  | .idle => 0
  | .aq .. | .ax .. | .cq .. | .cx .. => 13
  | .al .. | .axl .. | .cl .. | .cxl .. => 12
  | .as .. | .cs .. => 11
  | .az .. | .cz .. => 10
  | .vq x => 10 * x.length + 3
  | .vl x => 10 * x.length + 2
  | .vs x => 10 * x.length + 1
  | .vz x => 10 * x.length
  | .an x => 4 + (if x = [] then 0 else 10 * x.length + 3)
  | .cn | .kn => 4
  | .s0 => 12
  | .s1 => 11
  | .s2 => 10
  | .s3 => 5

theorem work_notify {w : Pc → Option Pc} (hw : ∀ p q, w p = some q → work q = work p + 3) {l l' : List Pc} (hn : Notify w l l') : wsum work l' ≤ wsum work l + 3 := by
  cases hn with
  | one j p q hj hq =>
    have := wsum_set (f := work) (b := q) hj
    have := hw p q hq
    omega
  | none _ => omega

theorem workA (p q : Pc) (h : wakeA p = some q) : work q = work p + 3 := by
  cases p <;> simp [wakeA] at h <;> subst h <;> simp [work]

theorem workC (p q : Pc) (h : wakeC p = some q) : work q = work p + 3 := by
  cases p <;> simp [wakeC] at h <;> subst h <;> simp [work]

theorem Step.work {s s' : S} (hf : ∀ (j : Nat) (p : Pc), s.pc[j]? = some p → Full p) (h : Step s s') : wsum work s'.pc < wsum work s.pc := by
  have key : ∀ {i : Nat} {a b : Pc}, s.pc[i]? = some a → Blocking.work b < Blocking.work a → wsum Blocking.work (s.pc.set i b) < wsum Blocking.work s.pc := by
    intro i a b h hw
    have := wsum_set (f := Blocking.work) (b := b) h
    omega
  have keyn : ∀ {i : Nat} {a b : Pc}, s.pc[i]? = some a → Blocking.work b + 3 < Blocking.work a → wsum Blocking.work (s.pc.set i b) + 3 < wsum Blocking.work s.pc := by
    intro i a b h hw
    have := wsum_set (f := Blocking.work) (b := b) h
    omega
  cases h with
  | al i x t h | axl i x h => split <;> exact key h (by simp [Blocking.work])
  | vl i x h =>
    have hx : x ≠ [] := hf _ _ h
    have : 0 < x.length := List.length_pos_iff.2 hx
    split
    · refine key h ?_
      simp only [Blocking.work]
      split <;> simp <;> omega
    · exact key h (by simp [Blocking.work])
  | cl i n t h => split <;> (try split) <;> exact key h (by simp [Blocking.work])
  | cxl i n h => split <;> exact key h (by simp [Blocking.work])
  | an i x l h hn =>
    have h1 := work_notify workC hn
    have h2 := keyn (b := if x = [] then .idle else .vq x) h (by by_cases hx : x = [] <;> simp [Blocking.work, hx] <;> omega)
    simp only at *
    omega
  | cn i l h hn | kn i l h hn =>
    exact Nat.lt_of_le_of_lt (work_notify workA hn) (keyn (b := .idle) h (by simp [Blocking.work]))
  | s2 i l h hn =>
    exact Nat.lt_of_le_of_lt (work_notify workA hn) (keyn (b := .s3) h (by simp [Blocking.work]))
  | s3 i l h hn =>
    exact Nat.lt_of_le_of_lt (work_notify workC hn) (keyn (b := .idle) h (by simp [Blocking.work]))
  | _ => exact key (by assumption) (by simp [Blocking.work])

/-- Without new calls and without the end of a time the buffer comes to rest, whatever the number of fibers: nobody is woken up for ever. -/
theorem C112_rest {single : Bool} {cap n : Nat} (f : Nat → S) (h : Reach single cap n (f 0)) : ¬ ∀ k, Step (f k) (f (k + 1)) := by
  intro hs
  have hr : ∀ k, Reach single cap n (f k) := by
    intro k
    induction k with
    | zero => exact h
    | succ k ih => exact ih.step (hs k)
  have : ∀ k, wsum work (f k).pc + k ≤ wsum work (f 0).pc := by
    intro k
    induction k with
    | zero => omega
    | succ k ih =>
      have := Step.work (hr k).full (hs k)
      omega
  have := this (wsum work (f 0).pc + 1)
  omega

theorem notify_ex (w : Pc → Option Pc) (l : List Pc) : ∃ l', Notify w l l' := by
  by_cases h : ∀ (j : Nat) (p : Pc), l[j]? = some p → w p = none
  · exact ⟨l, .none h⟩
  · simp only [Classical.not_forall] at h
    obtain ⟨j, p, hj, hw⟩ := h
    cases hq : w p with
    | none => exact absurd hq hw
    | some q => exact ⟨_, .one j p q hj hq⟩

theorem quiet_lk {s : S} (w : wsum fLk s.pc = s.lk.toNat) (hq : s.quiet) : s.lk = false := by
  cases hl : s.lk with
  | false => rfl
  | true =>
    rw [hl] at w
    obtain ⟨i, a, ha, hf⟩ := wsum_pos (f := fLk) (l := s.pc) (by simp [w])
    cases a <;> simp [fLk] at hf
    · exact absurd (Step.al i _ _ ha) (hq _)
    · exact absurd (Step.as i _ _ ha) (hq _)
    · exact absurd (Step.axl i _ ha) (hq _)
    · exact absurd (Step.vl i _ ha) (hq _)
    · exact absurd (Step.vs i _ ha) (hq _)
    · exact absurd (Step.cl i _ _ ha) (hq _)
    · exact absurd (Step.cs i _ _ ha) (hq _)
    · exact absurd (Step.cxl i _ ha) (hq _)
    · exact absurd (Step.s1 i ha) (hq _)

theorem quiet_pc {s : S} (w : wsum fLk s.pc = s.lk.toNat) (hq : s.quiet) {i : Nat} {p : Pc} (h : s.pc[i]? = some p) : p = .idle ∨ zA p = true ∨ zC p = true := by
  have hl := quiet_lk w hq
  have hn := wsum_mem (f := fLk) h
  rw [w, hl] at hn
  cases p <;> simp [fLk] at hn <;> (try simp [zA, zC])
  · exact absurd (Step.aq i _ _ h hl) (hq _)
  · exact absurd (Step.ax i _ h hl) (hq _)
  · exact absurd (Step.vq i _ h hl) (hq _)
  · exact absurd (Step.an i _ _ h (notify_ex _ _).choose_spec) (hq _)
  · exact absurd (Step.cq i _ _ h hl) (hq _)
  · exact absurd (Step.cx i _ h hl) (hq _)
  · exact absurd (Step.cn i _ h (notify_ex _ _).choose_spec) (hq _)
  · exact absurd (Step.kn i _ h (notify_ex _ _).choose_spec) (hq _)
  · exact absurd (Step.s0 i h hl) (hq _)
  · exact absurd (Step.s2 i _ h (notify_ex _ _).choose_spec) (hq _)
  · exact absurd (Step.s3 i _ h (notify_ex _ _).choose_spec) (hq _)

/-- With one appender and one cutter at a time, whoever sleeps when the buffer is at rest sleeps rightly: no notification is lost. -/
theorem C112_awake {cap n : Nat} {s : S} (h : Reach true cap n s) (hq : s.quiet) (i : Nat) (p : Pc) (hp : s.pc[i]? = some p) : p = .idle ∨ s.waits p := by
  have w := h.wi
  have hz : ∀ f : Pc → Nat, (∀ p, zA p = true ∨ zC p = true → f p = 0) → f .idle = 0 → wsum f s.pc = 0 := by
    intro f hf hi
    refine Nat.eq_zero_of_not_pos fun hpos => ?_
    obtain ⟨j, a, ha, hfa⟩ := wsum_pos hpos
    rcases quiet_pc w.lk hq ha with rfl | h'
    · omega
    · have := hf a h'; omega
  have z1 := hz fNF (by intro p; cases p <;> simp [zA, zC, fNF]) rfl
  have z2 := hz fNE (by intro p; cases p <;> simp [zA, zC, fNE]) rfl
  rcases quiet_pc w.lk hq hp with rfl | hA | hC
  · exact .inl rfl
  · right
    cases hc : cond s.content.length s.cap s.stop p with
    | true => have := w.za i p hp hA hc; omega
    | false =>
      cases p <;> simp [zA] at hA <;> simp [cond] at hc <;> simp [S.waits] <;> grind
  · right
    cases hc : cond s.content.length s.cap s.stop p with
    | true => have := w.zc i p hp hC hc; omega
    | false =>
      cases p <;> simp [zC] at hC <;> simp [cond] at hc <;> simp [S.waits] <;> grind

theorem Reach.cap_eq {cap n : Nat} {s : S} (h : Reach true cap n s) : s.cap = cap := by
  induction h with
  | init => rfl
  | call h hc ih => cases hc <;> first | exact ih | (rename_i h1; cases h1)
  | timeout h ht ih => cases ht <;> exact ih
  | step h hs ih =>
    cases hs with
    | al i x t h | axl i x h | vl i x h => split <;> exact ih
    | cl i n t h => split <;> (try split) <;> exact ih
    | cxl i n h => split <;> exact ih
    | _ => exact ih

/-- `AppendAlways` and a `Cut` of not more than the capacity never wait for each other. -/
theorem C112_flow {cap n : Nat} {s : S} (h : Reach true cap n s) (hq : s.quiet) {i j k : Nat} {x : List Nat} {t : Bool} (hk : k ≤ cap) (hi : s.pc[i]? = some (.vz x)) : s.pc[j]? ≠ some (.cz k t) := by
  intro hj
  have h1 := C112_awake h hq i _ hi
  have h2 := C112_awake h hq j _ hj
  have := h.cap_eq
  simp [S.waits] at h1 h2
  omega

/-! ## C113 -/

theorem quiet_of {s : S} (h : s.pc.all (fun p => p = .idle || zA p || zC p) = true) : s.quiet := by
  intro s' hs
  have h' : ∀ (i : Nat) (p : Pc), s.pc[i]? = some p → p = .idle ∨ zA p = true ∨ zC p = true := by
    intro i p hp
    have := List.all_eq_true.1 h p (List.mem_of_getElem? hp)
    simpa [or_assoc] using this
  cases hs <;> (have := h' _ _ ‹_›; simp [zA, zC] at this)

theorem asleep {w : Pc → Option Pc} {l : List Pc} (h : l.all (fun p => (w p).isNone) = true) (j : Nat) (p : Pc) (hp : l[j]? = some p) : w p = none := by
  have := List.all_eq_true.1 h p (List.mem_of_getElem? hp)
  simpa using this

/-- One appender, one cutter, and nothing is ever lost; yet a `Cut` of more than the capacity and an `AppendAlways` of that much wait for each other, the buffer being full. -/
theorem C113_big_partial : ∃ s : S, Reach true 2 2 s ∧ s.quiet ∧ s.stop = false ∧ s.pc = [.vz [3], .cz 3 true] ∧ s.content = [1, 2] := by
  have h : Reach true 2 2 ⟨[], 2, false, false, [.idle, .idle], [], []⟩ := .init
  have h : Reach true 2 2 ⟨[], 2, false, false, [.vq [1, 2, 3], .idle], [], []⟩ := h.call (.appendAlways 0 [1, 2, 3] (by simp) rfl (fun _ => rfl))
  have h : Reach true 2 2 ⟨[], 2, false, true, [.vl [1, 2, 3], .idle], [], []⟩ := h.step (.vq 0 [1, 2, 3] rfl rfl)
  have h : Reach true 2 2 ⟨[1, 2], 2, false, false, [.an [3], .idle], [1, 2], []⟩ := h.step (.vl 0 [1, 2, 3] rfl)
  have h : Reach true 2 2 ⟨[1, 2], 2, false, false, [.vq [3], .idle], [1, 2], []⟩ := h.step (.an 0 [3] _ rfl (.none (asleep rfl)))
  have h : Reach true 2 2 ⟨[1, 2], 2, false, true, [.vl [3], .idle], [1, 2], []⟩ := h.step (.vq 0 [3] rfl rfl)
  have h : Reach true 2 2 ⟨[1, 2], 2, false, true, [.vs [3], .idle], [1, 2], []⟩ := h.step (.vl 0 [3] rfl)
  have h : Reach true 2 2 ⟨[1, 2], 2, false, false, [.vz [3], .idle], [1, 2], []⟩ := h.step (.vs 0 [3] rfl)
  have h : Reach true 2 2 ⟨[1, 2], 2, false, false, [.vz [3], .cq 3 true], [1, 2], []⟩ := h.call (.cut 1 3 true rfl (fun _ => rfl))
  have h : Reach true 2 2 ⟨[1, 2], 2, false, true, [.vz [3], .cl 3 true], [1, 2], []⟩ := h.step (.cq 1 3 true rfl rfl)
  have h : Reach true 2 2 ⟨[1, 2], 2, false, true, [.vz [3], .cs 3 true], [1, 2], []⟩ := h.step (.cl 1 3 true rfl)
  have h : Reach true 2 2 ⟨[1, 2], 2, false, false, [.vz [3], .cz 3 true], [1, 2], []⟩ := h.step (.cs 1 3 true rfl)
  exact ⟨_, h, quiet_of rfl, rfl, rfl, rfl⟩

/-- `Stop` does not end an `AppendAlways` that waits for room: it sleeps on after the buffer is stopped. -/
theorem C113_stop_partial : ∃ s : S, Reach true 1 2 s ∧ s.quiet ∧ s.stop = true ∧ s.pc = [.vz [2], .idle] := by
  have h : Reach true 1 2 ⟨[], 1, false, false, [.idle, .idle], [], []⟩ := .init
  have h : Reach true 1 2 ⟨[], 1, false, false, [.vq [1, 2], .idle], [], []⟩ := h.call (.appendAlways 0 [1, 2] (by simp) rfl (fun _ => rfl))
  have h : Reach true 1 2 ⟨[], 1, false, true, [.vl [1, 2], .idle], [], []⟩ := h.step (.vq 0 [1, 2] rfl rfl)
  have h : Reach true 1 2 ⟨[1], 1, false, false, [.an [2], .idle], [1], []⟩ := h.step (.vl 0 [1, 2] rfl)
  have h : Reach true 1 2 ⟨[1], 1, false, false, [.vq [2], .idle], [1], []⟩ := h.step (.an 0 [2] _ rfl (.none (asleep rfl)))
  have h : Reach true 1 2 ⟨[1], 1, false, true, [.vl [2], .idle], [1], []⟩ := h.step (.vq 0 [2] rfl rfl)
  have h : Reach true 1 2 ⟨[1], 1, false, true, [.vs [2], .idle], [1], []⟩ := h.step (.vl 0 [2] rfl)
  have h : Reach true 1 2 ⟨[1], 1, false, false, [.vz [2], .idle], [1], []⟩ := h.step (.vs 0 [2] rfl)
  have h : Reach true 1 2 ⟨[1], 1, false, false, [.vz [2], .s0], [1], []⟩ := h.call (.stop 1 rfl)
  have h : Reach true 1 2 ⟨[1], 1, false, true, [.vz [2], .s1], [1], []⟩ := h.step (.s0 1  rfl rfl)
  have h : Reach true 1 2 ⟨[1], 1, true, false, [.vz [2], .s2], [1], []⟩ := h.step (.s1 1  rfl)
  have h : Reach true 1 2 ⟨[1], 1, true, false, [.vq [2], .s3], [1], []⟩ := h.step (.s2 1 _ rfl (.one 0 (.vz [2]) (.vq [2]) rfl rfl))
  have h : Reach true 1 2 ⟨[1], 1, true, false, [.vq [2], .idle], [1], []⟩ := h.step (.s3 1 _ rfl (.none (asleep rfl)))
  have h : Reach true 1 2 ⟨[1], 1, true, true, [.vl [2], .idle], [1], []⟩ := h.step (.vq 0 [2] rfl rfl)
  have h : Reach true 1 2 ⟨[1], 1, true, true, [.vs [2], .idle], [1], []⟩ := h.step (.vl 0 [2] rfl)
  have h : Reach true 1 2 ⟨[1], 1, true, false, [.vz [2], .idle], [1], []⟩ := h.step (.vs 0 [2] rfl)
  exact ⟨_, h, quiet_of rfl, rfl, rfl⟩

/-- `Stop` wakes up one cutter only: with two of them the other sleeps on in a stopped buffer. -/
theorem C113_stop_two_partial : ∃ s : S, Reach false 1 3 s ∧ s.quiet ∧ s.stop = true ∧ s.pc = [.idle, .cz 1 false, .idle] := by
  have h : Reach false 1 3 ⟨[], 1, false, false, [.idle, .idle, .idle], [], []⟩ := .init
  have h : Reach false 1 3 ⟨[], 1, false, false, [.cq 1 false, .idle, .idle], [], []⟩ := h.call (.cut 0 1 false rfl (by simp))
  have h : Reach false 1 3 ⟨[], 1, false, true, [.cl 1 false, .idle, .idle], [], []⟩ := h.step (.cq 0 1 false rfl rfl)
  have h : Reach false 1 3 ⟨[], 1, false, true, [.cs 1 false, .idle, .idle], [], []⟩ := h.step (.cl 0 1 false rfl)
  have h : Reach false 1 3 ⟨[], 1, false, false, [.cz 1 false, .idle, .idle], [], []⟩ := h.step (.cs 0 1 false rfl)
  have h : Reach false 1 3 ⟨[], 1, false, false, [.cz 1 false, .cq 1 false, .idle], [], []⟩ := h.call (.cut 1 1 false rfl (by simp))
  have h : Reach false 1 3 ⟨[], 1, false, true, [.cz 1 false, .cl 1 false, .idle], [], []⟩ := h.step (.cq 1 1 false rfl rfl)
  have h : Reach false 1 3 ⟨[], 1, false, true, [.cz 1 false, .cs 1 false, .idle], [], []⟩ := h.step (.cl 1 1 false rfl)
  have h : Reach false 1 3 ⟨[], 1, false, false, [.cz 1 false, .cz 1 false, .idle], [], []⟩ := h.step (.cs 1 1 false rfl)
  have h : Reach false 1 3 ⟨[], 1, false, false, [.cz 1 false, .cz 1 false, .s0], [], []⟩ := h.call (.stop 2 rfl)
  have h : Reach false 1 3 ⟨[], 1, false, true, [.cz 1 false, .cz 1 false, .s1], [], []⟩ := h.step (.s0 2  rfl rfl)
  have h : Reach false 1 3 ⟨[], 1, true, false, [.cz 1 false, .cz 1 false, .s2], [], []⟩ := h.step (.s1 2  rfl)
  have h : Reach false 1 3 ⟨[], 1, true, false, [.cz 1 false, .cz 1 false, .s3], [], []⟩ := h.step (.s2 2 _ rfl (.none (asleep rfl)))
  have h : Reach false 1 3 ⟨[], 1, true, false, [.cq 1 false, .cz 1 false, .idle], [], []⟩ := h.step (.s3 2 _ rfl (.one 0 (.cz 1 false) (.cq 1 false) rfl rfl))
  have h : Reach false 1 3 ⟨[], 1, true, true, [.cl 1 false, .cz 1 false, .idle], [], []⟩ := h.step (.cq 0 1 false rfl rfl)
  have h : Reach false 1 3 ⟨[], 1, true, false, [.cn, .cz 1 false, .idle], [], []⟩ := h.step (.cl 0 1 false rfl)
  have h : Reach false 1 3 ⟨[], 1, true, false, [.idle, .cz 1 false, .idle], [], []⟩ := h.step (.cn 0 _ rfl (.none (asleep rfl)))
  exact ⟨_, h, quiet_of rfl, rfl, rfl⟩

/-- `SetCapacity` between the test of an appender and its sleep: there is room, and the appender sleeps on. -/
theorem C113_capacity_partial : ∃ s : S, Reach false 1 2 s ∧ s.quiet ∧ s.pc = [.az [1, 2] false, .idle] ∧ s.content = [] ∧ s.cap = 2 := by
  have h : Reach false 1 2 ⟨[], 1, false, false, [.idle, .idle], [], []⟩ := .init
  have h : Reach false 1 2 ⟨[], 1, false, false, [.aq [1, 2] false, .idle], [], []⟩ := h.call (.append 0 [1, 2] false rfl (by simp))
  have h : Reach false 1 2 ⟨[], 1, false, true, [.al [1, 2] false, .idle], [], []⟩ := h.step (.aq 0 [1, 2] false rfl rfl)
  have h : Reach false 1 2 ⟨[], 1, false, true, [.as [1, 2] false, .idle], [], []⟩ := h.step (.al 0 [1, 2] false rfl)
  have h : Reach false 1 2 ⟨[], 2, false, true, [.as [1, 2] false, .kn], [], []⟩ := h.call (.setCap 1 2 rfl rfl)
  have h : Reach false 1 2 ⟨[], 2, false, true, [.as [1, 2] false, .idle], [], []⟩ := h.step (.kn 1 _ rfl (.none (asleep rfl)))
  have h : Reach false 1 2 ⟨[], 2, false, false, [.az [1, 2] false, .idle], [], []⟩ := h.step (.as 0 [1, 2] false rfl)
  exact ⟨_, h, quiet_of rfl, rfl, rfl, rfl⟩

/-- Two appenders: the notification goes to the one whose bytes do not fit, and the one whose bytes fit sleeps on. -/
theorem C113_two_partial : ∃ s : S, Reach false 2 3 s ∧ s.quiet ∧ s.pc = [.az [5, 6] false, .az [7] false, .idle] ∧ s.content = [2] ∧ s.cap = 2 ∧ s.stop = false := by
  have h : Reach false 2 3 ⟨[], 2, false, false, [.idle, .idle, .idle], [], []⟩ := .init
  have h : Reach false 2 3 ⟨[], 2, false, false, [.aq [1, 2] false, .idle, .idle], [], []⟩ := h.call (.append 0 [1, 2] false rfl (by simp))
  have h : Reach false 2 3 ⟨[], 2, false, true, [.al [1, 2] false, .idle, .idle], [], []⟩ := h.step (.aq 0 [1, 2] false rfl rfl)
  have h : Reach false 2 3 ⟨[1, 2], 2, false, false, [.an [], .idle, .idle], [1, 2], []⟩ := h.step (.al 0 [1, 2] false rfl)
  have h : Reach false 2 3 ⟨[1, 2], 2, false, false, [.idle, .idle, .idle], [1, 2], []⟩ := h.step (.an 0 [] _ rfl (.none (asleep rfl)))
  have h : Reach false 2 3 ⟨[1, 2], 2, false, false, [.aq [5, 6] false, .idle, .idle], [1, 2], []⟩ := h.call (.append 0 [5, 6] false rfl (by simp))
  have h : Reach false 2 3 ⟨[1, 2], 2, false, true, [.al [5, 6] false, .idle, .idle], [1, 2], []⟩ := h.step (.aq 0 [5, 6] false rfl rfl)
  have h : Reach false 2 3 ⟨[1, 2], 2, false, true, [.as [5, 6] false, .idle, .idle], [1, 2], []⟩ := h.step (.al 0 [5, 6] false rfl)
  have h : Reach false 2 3 ⟨[1, 2], 2, false, false, [.az [5, 6] false, .idle, .idle], [1, 2], []⟩ := h.step (.as 0 [5, 6] false rfl)
  have h : Reach false 2 3 ⟨[1, 2], 2, false, false, [.az [5, 6] false, .aq [7] false, .idle], [1, 2], []⟩ := h.call (.append 1 [7] false rfl (by simp))
  have h : Reach false 2 3 ⟨[1, 2], 2, false, true, [.az [5, 6] false, .al [7] false, .idle], [1, 2], []⟩ := h.step (.aq 1 [7] false rfl rfl)
  have h : Reach false 2 3 ⟨[1, 2], 2, false, true, [.az [5, 6] false, .as [7] false, .idle], [1, 2], []⟩ := h.step (.al 1 [7] false rfl)
  have h : Reach false 2 3 ⟨[1, 2], 2, false, false, [.az [5, 6] false, .az [7] false, .idle], [1, 2], []⟩ := h.step (.as 1 [7] false rfl)
  have h : Reach false 2 3 ⟨[1, 2], 2, false, false, [.az [5, 6] false, .az [7] false, .cq 1 false], [1, 2], []⟩ := h.call (.cut 2 1 false rfl (by simp))
  have h : Reach false 2 3 ⟨[1, 2], 2, false, true, [.az [5, 6] false, .az [7] false, .cl 1 false], [1, 2], []⟩ := h.step (.cq 2 1 false rfl rfl)
  have h : Reach false 2 3 ⟨[2], 2, false, false, [.az [5, 6] false, .az [7] false, .cn], [1, 2], [1]⟩ := h.step (.cl 2 1 false rfl)
  have h : Reach false 2 3 ⟨[2], 2, false, false, [.aq [5, 6] false, .az [7] false, .idle], [1, 2], [1]⟩ := h.step (.cn 2 _ rfl (.one 0 (.az [5, 6] false) (.aq [5, 6] false) rfl rfl))
  have h : Reach false 2 3 ⟨[2], 2, false, true, [.al [5, 6] false, .az [7] false, .idle], [1, 2], [1]⟩ := h.step (.aq 0 [5, 6] false rfl rfl)
  have h : Reach false 2 3 ⟨[2], 2, false, true, [.as [5, 6] false, .az [7] false, .idle], [1, 2], [1]⟩ := h.step (.al 0 [5, 6] false rfl)
  have h : Reach false 2 3 ⟨[2], 2, false, false, [.az [5, 6] false, .az [7] false, .idle], [1, 2], [1]⟩ := h.step (.as 0 [5, 6] false rfl)
  exact ⟨_, h, quiet_of rfl, rfl, rfl, rfl, rfl⟩

/-- Bytes do come out (for C112_fifo, C112_capacity), and a quiet state with a sleeper exists (C113_big_partial, for C112_awake). -/
example : ∃ s : S, Reach true 2 2 s ∧ s.quiet ∧ s.got = [1] ∧ s.content = [2] := by
  have h : Reach true 2 2 ⟨[], 2, false, false, [.idle, .idle], [], []⟩ := .init
  have h : Reach true 2 2 ⟨[], 2, false, false, [.aq [1, 2] true, .idle], [], []⟩ := h.call (.append 0 [1, 2] true rfl (fun _ => rfl))
  have h : Reach true 2 2 ⟨[], 2, false, true, [.al [1, 2] true, .idle], [], []⟩ := h.step (.aq 0 [1, 2] true rfl rfl)
  have h : Reach true 2 2 ⟨[1, 2], 2, false, false, [.an [], .idle], [1, 2], []⟩ := h.step (.al 0 [1, 2] true rfl)
  have h : Reach true 2 2 ⟨[1, 2], 2, false, false, [.idle, .idle], [1, 2], []⟩ := h.step (.an 0 [] _ rfl (.none (asleep rfl)))
  have h : Reach true 2 2 ⟨[1, 2], 2, false, false, [.idle, .cq 1 true], [1, 2], []⟩ := h.call (.cut 1 1 true rfl (fun _ => rfl))
  have h : Reach true 2 2 ⟨[1, 2], 2, false, true, [.idle, .cl 1 true], [1, 2], []⟩ := h.step (.cq 1 1 true rfl rfl)
  have h : Reach true 2 2 ⟨[2], 2, false, false, [.idle, .cn], [1, 2], [1]⟩ := h.step (.cl 1 1 true rfl)
  have h : Reach true 2 2 ⟨[2], 2, false, false, [.idle, .idle], [1, 2], [1]⟩ := h.step (.cn 1 _ rfl (.none (asleep rfl)))
  exact ⟨_, h, quiet_of rfl, rfl, rfl⟩

end Verif.Sync.Blocking
