import Verif.Fiber.SchedInv
/-!
# The invariant of the fiber scheduler is preserved
-/

namespace Verif.Fiber.Sched

theorem upd_self {α : Type} (f : Nat → α) (i : Nat) : upd f i (f i) = f := by
  funext j
  by_cases h : j = i
  · subst h; simp
  · rw [upd_ne _ _ h]

theorem setK_self {s : St} {t : Thr} {k : Option K} (h : s.k t = k) : setK s t k = s := by
  have : (fun t' => if t' = t then k else s.k t') = s.k := by
    funext t'
    by_cases e : t' = t
    · subst e; simp [h]
    · simp [e]
  simp only [setK, this]

/-- A worker moves and calls nothing. -/
theorem Inv.wgo {s : St} (h : Inv s) {i : Nat} (hi : i < s.n) (p : WPc) (spin' sleep' : BitVec 64) (queue' : List Nat)
    (pend' : Bool) (hk : s.k (.worker i) = none)
    (hsp : ∀ j, j ≠ i → spin'.getLsbD j = s.spin.getLsbD j)
    (hsl : ∀ j, j ≠ i → sleep'.getLsbD j = s.sleep.getLsbD j)
    (hq : queue' ≠ [] → s.queue ≠ []) (h2 : bits spin' ≤ 2)
    (hsb : spin'.getLsbD i = true → p.inSpin = true) (hlb : sleep'.getLsbD i = true → p.inWait = true)
    (hpos : p.down = false → 1 ≤ s.count i)
    (hfind : p.seek = true → sleep'.getLsbD i = true ∨ Inflight s i ∨ p.need ≤ s.count i)
    (hfut : p = .asleep → 1 ≤ s.count i → Futexing s i)
    (hqu : p.quits = true → s.stopped = true)
    (hr : queue' ≠ [] → s.stopped = false → Up s i → p.low = false ∨ Inflight s i ∨ p.need ≤ s.count i) :
    Inv { s with w := upd s.w i p, spin := spin', sleep := sleep', queue := queue', pending := pend' } := by
  have := h.wmove hi p spin' sleep' (s.count i) queue' pend' none hk hsp hsl hq rfl trivial h2 hsb hlb ⟨(h.pos i).1, hpos⟩ hfind hfut hqu
    (fun a b c => .inr (hr a b c))
  rw [upd_self, setK_self (by exact hk)] at this
  exact this

/-- A worker moves and changes nothing else. -/
theorem Inv.goto {s : St} (h : Inv s) {i : Nat} (hi : i < s.n) (p : WPc) (hk : s.k (.worker i) = none)
    (hsb : s.spin.getLsbD i = true → p.inSpin = true) (hlb : s.sleep.getLsbD i = true → p.inWait = true)
    (hpos : p.down = false → 1 ≤ s.count i)
    (hfind : p.seek = true → s.sleep.getLsbD i = true ∨ Inflight s i ∨ p.need ≤ s.count i)
    (hfut : p = .asleep → 1 ≤ s.count i → Futexing s i)
    (hqu : p.quits = true → s.stopped = true)
    (hr : s.queue ≠ [] → s.stopped = false → Up s i → p.low = false ∨ Inflight s i ∨ p.need ≤ s.count i) :
    Inv (s.toW i p) :=
  h.wgo hi p s.spin s.sleep s.queue s.pending hk (fun _ _ => rfl) (fun _ _ => rfl) id h.sp2 hsb hlb hpos hfind hfut hqu hr

theorem inSpin_low {p : WPc} (h : p.inSpin = true) : p.low = false := by
  cases p with
  | pop a => rfl
  | stopChk a => cases a <;> simp_all [WPc.inSpin, WPc.low]
  | _ => simp_all [WPc.inSpin, WPc.low]

theorem mem_wakeAll (l : List Nat) (i : Nat) : i ∈ pendOf (wakeAll l) ↔ i ∈ l := by
  cases l <;> simp [wakeAll, pendOf, K.pend]

theorem wakeAll_ok (n : Nat) (l : List Nat) : okOf n (wakeAll l) := by
  cases l <;> simp [wakeAll, okOf, K.Ok]

/-- `WaitSlot::Wake` adds to the counter. -/
theorem Inv.add {s : St} (h : Inv s) {t : Thr} {i : Nat} {r : List Nat} (hk : s.k t = some (.add i r)) :
    Inv (setK { s with count := upd s.count i (s.count i + 1) } t (some (if s.count i = 0 then .futex i r else .chk i r))) := by
  generalize hk' : (some (if s.count i = 0 then K.futex i r else K.chk i r)) = k'
  have hp : pendOf k' = r := by subst hk'; split <;> rfl
  have hn : searchOf k' = false := by subst hk'; split <;> rfl
  have hin : ∀ j, j ≠ i → Inflight s j → Inflight (setK { s with count := upd s.count i (s.count i + 1) } t k') j := by
    rintro j hj ⟨t', h'⟩
    refine ⟨t', ?_⟩
    by_cases e : t' = t
    · subst e; rw [hk] at h'; simp only [pendOf, K.pend, List.mem_cons] at h'
      simp only [setK, hp, if_pos]; exact h'.resolve_left hj
    · simpa [setK, e] using h'
  have up : ∀ j, (s.w j).seek = true ∨ (s.w j).low = true → Inflight s j ∨ (s.w j).need ≤ s.count j →
      Inflight (setK { s with count := upd s.count i (s.count i + 1) } t k') j ∨ (s.w j).need ≤ upd s.count i (s.count i + 1) j := by
    intro j _ h'
    by_cases e : j = i
    · subst e
      right
      rw [upd_same]
      have := h.pos j
      unfold WPc.need
      split
      · omega
      · rename_i hd
        have := this.2 (by simpa using hd); omega
    · rw [upd_ne _ _ e]
      rcases h' with h' | h'
      · exact .inl (hin j e h')
      · exact .inr h'
  constructor
  case n1 => exact h.n1
  case n64 => exact h.n64
  case sb => exact h.sb
  case lb => exact h.lb
  case pos =>
    intro j
    show 0 ≤ upd s.count i (s.count i + 1) j ∧ ((s.w j).down = false → 1 ≤ upd s.count i (s.count i + 1) j)
    have := h.pos j
    by_cases e : j = i
    · subst e; rw [upd_same]; omega
    · rw [upd_ne _ _ e]; exact this
  case find =>
    intro j hj
    rcases h.find j hj with h1 | h1
    · exact .inl h1
    · exact .inr (up j (.inl hj) h1)
  case fut =>
    intro j hj hc
    have hj : s.w j = .asleep := hj
    have hc : 1 ≤ upd s.count i (s.count i + 1) j := hc
    by_cases e : j = i
    · subst e
      by_cases h0 : s.count j = 0
      · refine .inl ⟨t, r, ?_⟩
        subst hk'
        simp [setK, h0]
      · have := (h.pos j).1
        rcases h.fut j hj (by omega) with ⟨t', r', h'⟩ | h'
        · refine .inl ⟨t', r', ?_⟩
          have : t' ≠ t := by rintro rfl; rw [hk] at h'; simp at h'
          simpa [setK, this] using h'
        · exact .inr h'
    · rw [upd_ne _ _ e] at hc
      rcases h.fut j hj hc with ⟨t', r', h'⟩ | h'
      · refine .inl ⟨t', r', ?_⟩
        have : t' ≠ t := by rintro rfl; rw [hk] at h'; simp at h'
        simpa [setK, this] using h'
      · exact .inr h'
  case sp2 => exact h.sp2
  case ok =>
    intro t'
    by_cases e : t' = t
    · subst hk'; simp only [setK, e, if_pos]; split <;> simp [okOf, K.Ok]
    · simpa [setK, e] using h.ok t'
  case resp =>
    intro hs hq
    rcases h.resp hs hq with ⟨t', h'⟩ | ⟨j, hj, h'⟩
    · have e : t' ≠ t := by rintro rfl; rw [hk] at h'; simp [searchOf, K.search] at h'
      exact .inl ⟨t', by simpa [setK, e] using h'⟩
    · refine .inr ⟨j, hj, ?_⟩
      cases hl : (s.w j).low with
      | false => exact .inl hl
      | true =>
        rcases h' with h' | h'
        · rw [hl] at h'; simp at h'
        · exact .inr (up j (.inr hl) h')
  case quits => exact h.quits
  case cst => exact h.cst

/-- `FUTEX_WAKE` for slot `i`. -/
theorem Inv.wake {s : St} (h : Inv s) (i : Nat) : Inv { s with w := if s.w i = .asleep then upd s.w i .reload else s.w } := by
  split
  · rename_i hw
    constructor
    case n1 => exact h.n1
    case n64 => exact h.n64
    case sb =>
      intro j hj
      have := h.sb j hj
      refine ⟨this.1, ?_⟩
      show (upd s.w i .reload j).inSpin = true
      by_cases e : j = i
      · subst e; rw [hw] at this; simp [WPc.inSpin] at this
      · rw [upd_ne _ _ e]; exact this.2
    case lb =>
      intro j hj
      have := h.lb j hj
      refine ⟨this.1, ?_⟩
      show (upd s.w i .reload j).inWait = true
      by_cases e : j = i
      · subst e; simp [WPc.inWait]
      · rw [upd_ne _ _ e]; exact this.2
    case pos =>
      intro j
      have := h.pos j
      show 0 ≤ s.count j ∧ ((upd s.w i .reload j).down = false → _)
      by_cases e : j = i
      · subst e; simp [WPc.down]; exact this.1
      · rw [upd_ne _ _ e]; exact this
    case find =>
      intro j
      show (upd s.w i .reload j).seek = true → _ ∨ Inflight s j ∨ (upd s.w i .reload j).need ≤ s.count j
      have := h.find j
      by_cases e : j = i
      · subst e; rw [hw] at this; rw [upd_same]; intro _; exact this rfl
      · rw [upd_ne _ _ e]; exact this
    case fut =>
      intro j
      show upd s.w i .reload j = .asleep → _
      by_cases e : j = i
      · subst e; simp
      · rw [upd_ne _ _ e]; exact h.fut j
    case sp2 => exact h.sp2
    case ok => exact h.ok
    case resp =>
      intro hs hq
      rcases h.resp hs hq with h' | ⟨j, hj, h'⟩
      · exact .inl h'
      · refine .inr ⟨j, hj, ?_⟩
        unfold Up at h' ⊢
        show (upd s.w i .reload j).low = false ∨ Inflight s j ∨ (upd s.w i .reload j).need ≤ s.count j
        by_cases e : j = i
        · subst e; rw [hw] at h'; rw [upd_same]; exact h'
        · rw [upd_ne _ _ e]; exact h'
    case quits =>
      intro j
      show (upd s.w i .reload j).quits = true → _
      by_cases e : j = i
      · subst e; simp [WPc.quits]
      · rw [upd_ne _ _ e]; exact h.quits j
    case cst => exact h.cst
  · exact h

/-- The caller of `FUTEX_WAKE` goes on: `i` no longer sleeps. -/
theorem Inv.awake {s : St} (h : Inv s) {t : Thr} {i : Nat} {r : List Nat} (hk : s.k t = some (.futex i r)) (hw : s.w i ≠ .asleep) :
    Inv (setK s t (some (.chk i r))) := by
  have hin : ∀ j, Inflight s j → Inflight (setK s t (some (.chk i r))) j := by
    rintro j ⟨t', h'⟩
    refine ⟨t', ?_⟩
    by_cases e : t' = t
    · subst e; rw [hk] at h'; simpa [setK, pendOf, K.pend] using h'
    · simpa [setK, e] using h'
  constructor
  case n1 => exact h.n1
  case n64 => exact h.n64
  case sb => exact h.sb
  case lb => exact h.lb
  case pos => exact h.pos
  case find =>
    intro j hj
    rcases h.find j hj with h' | h' | h'
    · exact .inl h'
    · exact .inr (.inl (hin j h'))
    · exact .inr (.inr h')
  case fut =>
    intro j hj hc
    rcases h.fut j hj hc with ⟨t', r', h'⟩ | h'
    · refine .inl ⟨t', r', ?_⟩
      by_cases e : t' = t
      · subst e; rw [hk] at h'; injection h' with h'; injection h' with h' _; subst h'; exact absurd hj hw
      · simpa [setK, e] using h'
    · exact .inr h'
  case sp2 => exact h.sp2
  case ok =>
    intro t'
    by_cases e : t' = t
    · simp [setK, e, okOf, K.Ok]
    · simpa [setK, e] using h.ok t'
  case resp =>
    intro hs hq
    rcases h.resp hs hq with ⟨t', h'⟩ | ⟨j, hj, h'⟩
    · have e : t' ≠ t := by rintro rfl; rw [hk] at h'; simp [searchOf, K.search] at h'
      exact .inl ⟨t', by simpa [setK, e] using h'⟩
    · refine .inr ⟨j, hj, ?_⟩
      rcases h' with h' | h' | h'
      · exact .inl h'
      · exact .inr (.inl (hin j h'))
      · exact .inr (.inr h')
  case quits => exact h.quits
  case cst => exact h.cst

theorem wake_ne (w : Nat → WPc) (i : Nat) : (if w i = .asleep then upd w i .reload else w) i ≠ .asleep := by
  split <;> simp_all

theorem Inv.kstep {s : St} (h : Inv s) {t : Thr} {k : K} (hk : s.k t = some k) (b : Bool) :
    Inv (kstep s t b k).1 ∧ (kstep s t b k).2 = [] := by
  have hok := h.ok t
  rw [hk] at hok
  have n0 : 0 < s.n := h.n1
  have low : ∀ j, s.sleep.getLsbD j = true → j < s.n := fun j hj => (h.lb j hj).1
  cases k with
  | spinLoad =>
    refine ⟨?_, rfl⟩
    refine h.kmove hk s.spin s.sleep _ (fun _ => id) (fun _ => id) (by simp [K.pend]) (fun _ => .inl) (by simp) ?_ ?_
    · simp only [okOf]; split <;> simp [K.Ok]
    · intro _; left; simp only [searchOf]; split <;> rfl
  | spinClaim i =>
    refine ⟨?_, rfl⟩
    refine h.kmove hk (s.spin &&& ~~~bit i) s.sleep _ ?_ (fun _ => id) (by simp [K.pend]) (fun _ => .inl) (by simp) ?_ ?_
    · intro j hj; rw [clear_get] at hj; simp at hj; exact hj.1
    · split <;> simp [okOf, K.Ok]
    · intro _
      split
      · rename_i hb
        rw [and_bit] at hb
        obtain ⟨h1, h2⟩ := h.sb i hb
        exact .inr (.inl ⟨i, h1, inSpin_low h2⟩)
      · exact .inl rfl
  | deepLoad =>
    refine ⟨?_, rfl⟩
    refine h.kmove hk s.spin s.sleep _ (fun _ => id) (fun _ => id) (by simp [K.pend]) (fun _ => .inl) (by simp) ?_ ?_
    · split <;> simp [okOf, K.Ok]
    · intro _
      split
      · rename_i h0
        exact .inr (.inr (.inr ⟨0, n0, by rw [h0]; rfl⟩))
      · exact .inl rfl
  | deepClaim i =>
    unfold Sched.kstep
    simp only
    split
    · rename_i hb
      rw [and_bit] at hb
      have hi := low i hb
      refine ⟨?_, by simp [hi]⟩
      refine h.kmove hk s.spin (s.sleep &&& ~~~bit i) _ (fun _ => id) ?_ (by simp [K.pend]) ?_ (by simp) (by simp [okOf, K.Ok]) ?_
      · intro j hj; rw [clear_get] at hj; simp at hj; exact hj.1
      · intro j hj; rw [clear_get]; by_cases e : j = i <;> simp [hj, e, pendOf, K.pend]
      · intro _; exact .inr (.inr (.inl ⟨i, hi, by simp [pendOf, K.pend]⟩))
    · refine ⟨?_, rfl⟩
      exact h.kmove hk s.spin s.sleep _ (fun _ => id) (fun _ => id) (by simp [K.pend]) (fun _ => .inl) (by simp) (by simp [okOf, K.Ok]) (fun _ => .inl rfl)
  | add i r => exact ⟨h.add hk, rfl⟩
  | futex i r =>
    refine ⟨?_, rfl⟩
    exact (h.wake i).awake (t := t) (r := r) hk (wake_ne _ _)
  | chk i r =>
    refine ⟨?_, ?_⟩
    · refine h.kmove hk s.spin s.sleep _ (fun _ => id) (fun _ => id) ?_ (fun _ => .inl) (by simp) (wakeAll_ok _ _) (by simp [K.search])
      intro j hj; rw [mem_wakeAll]; exact hj
    · have := (h.pos i).1
      simp only [Sched.kstep]
      rw [if_neg (by omega)]
  | batch m =>
    obtain ⟨h2, h32⟩ := hok
    have := h.sp2
    refine ⟨?_, by simp only [Sched.kstep]; rw [if_neg (by omega)]⟩
    refine h.kmove hk 0 s.sleep _ (by simp) (fun _ => id) (by simp [K.pend]) (fun _ => .inl) (by simp) ?_ ?_
    · split
      · exact h32
      · split
        · exact ⟨by assumption, h32⟩
        · trivial
    · intro _
      split
      · exact .inl rfl
      · split
        · exact .inl rfl
        · have hb : s.spin ≠ 0 := by
            intro h0
            have : bits s.spin = 0 := by rw [h0]; exact bits_zero
            omega
          obtain ⟨i, hi⟩ := exists_bit hb
          obtain ⟨h1, h3⟩ := h.sb i hi
          exact .inr (.inl ⟨i, h1, inSpin_low h3⟩)
  | all =>
    obtain ⟨l, hl, hm⟩ := chosen_spec hok low
    simp only [Sched.kstep, hl]
    refine ⟨?_, trivial⟩
    refine h.kmove hk s.spin 0 _ (fun _ => id) (by simp) (by simp [K.pend]) ?_ (by simp) (wakeAll_ok _ _) ?_
    · intro j hj; right; rw [mem_wakeAll, hm]; exact hj
    · intro _; exact .inr (.inr (.inr ⟨0, n0, rfl⟩))
  | load m =>
    obtain ⟨h1, h32⟩ := hok
    unfold Sched.kstep
    simp only
    split
    · rename_i h0
      refine ⟨?_, rfl⟩
      refine h.kmove hk s.spin s.sleep _ (fun _ => id) (fun _ => id) (by simp [K.pend]) (fun _ => .inl) (by simp) trivial ?_
      intro _; exact .inr (.inr (.inr ⟨0, n0, by rw [h0]; rfl⟩))
    · split
      · refine ⟨?_, rfl⟩
        refine h.kmove hk s.spin s.sleep _ (fun _ => id) (fun _ => id) (by simp [K.pend]) (fun _ => .inl) (by simp) ?_ (fun _ => .inl rfl)
        exact ⟨h1, h32, ⟨0, n0, rfl⟩, by simp⟩
      · rename_i hb
        obtain ⟨m, rfl⟩ : ∃ m', m = m' + 1 := ⟨m - 1, by omega⟩
        rw [clearLoop_spec h32 low (by omega) m]
        refine ⟨?_, rfl⟩
        refine h.kmove hk s.spin s.sleep _ (fun _ => id) (fun _ => id) (by simp [K.pend]) (fun _ => .inl) (by simp) ?_ (fun _ => .inl rfl)
        obtain ⟨j, hj, hj'⟩ := exists_above (m := s.sleep) (by omega)
        refine ⟨by omega, h32, ⟨lowest s.sleep + 1, ?_, ?_⟩, ?_⟩
        · have := low j hj'; omega
        · rw [clear_get]; simp
        · intro j hj; rw [clear_get] at hj; simp at hj; exact hj.1
  | cas m was to =>
    obtain ⟨h1, h32, ⟨j, hj, hj'⟩, hsub⟩ := hok
    unfold Sched.kstep
    simp only
    split
    · rename_i hb
      obtain ⟨hw, _⟩ := hb
      have hl' : ∀ j, (was &&& ~~~to).getLsbD j = true → j < s.n := by
        intro j hj; rw [BitVec.getLsbD_and] at hj; simp at hj; exact low j (by rw [hw]; exact hj.1)
      obtain ⟨l, hl, hm⟩ := chosen_spec h32 hl'
      rw [hl]
      refine ⟨?_, rfl⟩
      refine h.kmove hk s.spin to _ (fun _ => id) ?_ (by simp [K.pend]) ?_ (by simp) (wakeAll_ok _ _) ?_
      · intro i hi; rw [hw]; exact hsub i hi
      · intro i hi
        rw [mem_wakeAll, hm, BitVec.getLsbD_and, BitVec.getLsbD_not]
        rw [hw] at hi
        have := get_lt hi
        cases ht : to.getLsbD i <;> simp [hi, this]
      · intro _; exact .inr (.inr (.inr ⟨j, hj, hj'⟩))
    · refine ⟨?_, rfl⟩
      exact h.kmove hk s.spin s.sleep _ (fun _ => id) (fun _ => id) (by simp [K.pend]) (fun _ => .inl) (by simp) ⟨h1, h32⟩ (fun _ => .inl rfl)

/-- Neither a failed check nor undefined behaviour. -/
def Fine (l : List Ev) : Prop := Ev.crash ∉ l ∧ Ev.ub ∉ l

theorem found_facts (g : Got) (a : Site) : (found g a).down = false ∧ (found g a).low = false ∧ (found g a).seek = false ∧
    ((WPc.pop a).inSpin = true → (found g a).inSpin = true) ∧ ((WPc.pop a).inWait = true → (found g a).inWait = true) ∧
    found g a ≠ .asleep ∧ ((found g a).quits = true → g = none) := by
  cases a <;> cases g <;> simp [found, go, WPc.down, WPc.low, WPc.seek, WPc.inSpin, WPc.inWait, WPc.quits]

theorem go_facts (g : Got) : (go g).down = false ∧ (go g).low = false ∧ (go g).seek = false ∧ go g ≠ .asleep ∧ ((go g).quits = true → g = none) := by
  cases g <;> simp [go, WPc.down, WPc.low, WPc.seek, WPc.quits]

theorem Inv.worker {s : St} (h : Inv s) {i : Nat} (hi : i < s.n) (hk : s.k (.worker i) = none) (b : Bool) :
    Inv (workerStep s i b).1 ∧ Fine (workerStep s i b).2 := by
  have i64 : i < 64 := by have := h.n64; omega
  have hsb := h.sb i
  have hlb := h.lb i
  have hpos := h.pos i
  have hfind := h.find i
  have hqu := h.quits i
  unfold workerStep
  cases hp : s.w i with
  | pop a =>
    rw [hp] at hsb hlb hpos hfind hqu
    simp only
    split
    · rename_i f q hq
      refine ⟨?_, by simp [Fine]⟩
      obtain ⟨f1, f2, f3, f4, f5, f6, f7⟩ := found_facts (some f) a
      exact h.wgo hi _ s.spin s.sleep q s.pending hk (fun _ _ => rfl) (fun _ _ => rfl) (by simp [hq]) h.sp2 (fun x => f4 (hsb x).2)
        (fun x => f5 (hlb x).2) (fun _ => hpos.2 rfl) (by simp [f3]) (fun x => absurd x f6) (fun x => by simpa using f7 x) (fun _ _ _ => .inl f2)
    · rename_i hq
      refine ⟨?_, by simp [Fine]⟩
      refine h.goto hi _ hk ?_ ?_ (fun _ => hpos.2 rfl) ?_ (by simp) (by simp [WPc.quits]) (by simp [hq])
      · intro x; have := (hsb x).2; cases a <;> simp_all [WPc.inSpin]
      · intro x; have := (hlb x).2; cases a <;> simp_all [WPc.inWait]
      · intro x
        cases a <;> simp_all [WPc.seek, WPc.low, WPc.need, WPc.down]
  | stopChk a =>
    rw [hp] at hsb hlb hpos hfind hqu
    refine ⟨?_, by simp [Fine]⟩
    simp only
    by_cases hst : s.stopped = true
    · rw [if_pos hst]
      obtain ⟨f1, f2, f3, f4, f5, f6, f7⟩ := found_facts none a
      have e1 : (WPc.stopChk a).inSpin = (WPc.pop a).inSpin := by cases a <;> rfl
      have e2 : (WPc.stopChk a).inWait = (WPc.pop a).inWait := by cases a <;> rfl
      exact h.goto hi _ hk (fun x => f4 (e1 ▸ (hsb x).2)) (fun x => f5 (e2 ▸ (hlb x).2)) (fun _ => hpos.2 rfl) (by simp [f3]) (fun x => absurd x f6) (fun _ => hst) (fun _ _ _ => .inl f2)
    · rw [if_neg hst]
      refine h.goto hi _ hk ?_ ?_ (fun _ => hpos.2 rfl) ?_ ?_ ?_ ?_
      · intro x; have := (hsb x).2; cases a <;> simp_all [WPc.inSpin, nothing]
      · intro x; have := (hlb x).2; cases a <;> simp_all [WPc.inWait, nothing]
      · intro x
        cases a <;> simp_all [WPc.seek, WPc.low, WPc.need, WPc.down, nothing]
      · cases a <;> simp [nothing]
      · cases a <;> simp [nothing, WPc.quits]
      · intro _ _ hu
        unfold Up at hu
        rw [hp] at hu
        cases a <;> simp_all [WPc.low, WPc.need, WPc.down, nothing]
  | run =>
    rw [hp] at hsb hlb hpos hfind hqu
    simp only
    split
    · rename_i f q hq
      refine ⟨?_, by simp [Fine]⟩
      have := h.wgo hi .run s.spin s.sleep q s.pending hk (fun _ _ => rfl) (fun _ _ => rfl) (by simp [hq]) h.sp2 (fun x => (hsb x).2)
        (fun x => (hlb x).2) (fun _ => hpos.2 rfl) (by simp [WPc.seek, WPc.low]) (by simp) (by simp [WPc.quits]) (by simp [WPc.low])
      rw [← hp, upd_self] at this
      exact this
    · refine ⟨?_, by simp [Fine]⟩
      refine h.goto hi _ hk ?_ ?_ (fun _ => hpos.2 rfl) ?_ ?_ ?_ ?_ <;> simp_all [WPc.inSpin, WPc.inWait, WPc.seek, WPc.low, WPc.quits]
  | spinLoad =>
    rw [hp] at hsb hlb hpos hfind hqu
    refine ⟨?_, by simp [Fine]⟩
    refine h.goto hi _ hk ?_ ?_ (fun _ => hpos.2 rfl) ?_ ?_ ?_ ?_ <;> simp_all [WPc.inSpin, WPc.inWait, WPc.seek, WPc.low, WPc.quits]
  | spinTry r =>
    rw [hp] at hsb hlb hpos hfind hqu
    simp only
    split
    · split
      · rename_i h2 hr
        refine ⟨?_, by simp [Fine]⟩
        refine h.wgo hi _ _ s.sleep s.queue s.pending hk ?_ (fun _ _ => rfl) id ?_ ?_ ?_ (fun _ => hpos.2 rfl) ?_ ?_ ?_ ?_
        · intro j hj; rw [set_get _ i64]; simp [hj]
        · have := bits_set s.spin i; rw [hr.1] at this ⊢; omega
        all_goals simp_all [WPc.inSpin, WPc.inWait, WPc.seek, WPc.low, WPc.quits]
      · refine ⟨?_, by simp [Fine]⟩
        refine h.goto hi _ hk ?_ ?_ (fun _ => hpos.2 rfl) ?_ ?_ ?_ ?_ <;> simp_all [WPc.inSpin, WPc.inWait, WPc.seek, WPc.low, WPc.quits]
    · refine ⟨?_, by simp [Fine]⟩
      refine h.goto hi _ hk ?_ ?_ (fun _ => hpos.2 rfl) ?_ ?_ ?_ ?_ <;> simp_all [WPc.inSpin, WPc.inWait, WPc.seek, WPc.low, WPc.quits]
  | spinPause =>
    rw [hp] at hsb hlb hpos hfind hqu
    simp only
    split
    · split
      · refine ⟨?_, by simp [Fine]⟩
        have := h.wmove hi .spinPause s.spin s.sleep (s.count i) s.queue false (some .deepLoad) hk (fun _ _ => rfl) (fun _ _ => rfl) id rfl
          trivial h.sp2 (fun x => (hsb x).2) (fun x => (hlb x).2) ⟨hpos.1, fun _ => hpos.2 rfl⟩ (by simp [WPc.seek, WPc.low]) (by simp)
          (by simp [WPc.quits]) (by simp [WPc.low])
        rw [upd_self, ← hp, upd_self] at this
        exact this
      · exact ⟨h, by simp [Fine]⟩
    · refine ⟨?_, by simp [Fine]⟩
      refine h.goto hi _ hk ?_ ?_ (fun _ => hpos.2 rfl) ?_ ?_ ?_ ?_ <;> simp_all [WPc.inSpin, WPc.inWait, WPc.seek, WPc.low, WPc.quits]
  | spinCheck =>
    rw [hp] at hsb hlb hpos hfind hqu
    refine ⟨?_, by simp [Fine]⟩
    simp only
    split <;> refine h.goto hi _ hk ?_ ?_ (fun _ => hpos.2 rfl) ?_ ?_ ?_ ?_ <;>
      simp_all [WPc.inSpin, WPc.inWait, WPc.seek, WPc.low, WPc.quits]
  | spinEnd g =>
    rw [hp] at hsb hlb hpos hfind hqu
    refine ⟨?_, by simp [Fine]⟩
    refine h.wgo hi _ (s.spin &&& ~~~bit i) s.sleep s.queue s.pending hk ?_ (fun _ _ => rfl) id ?_ ?_ ?_ (fun _ => hpos.2 rfl) ?_ ?_ ?_ ?_
    · intro j hj; rw [clear_get]; simp [hj]
    · exact Nat.le_trans (bits_clear _ _) h.sp2
    · rw [clear_get]; simp
    · intro x; have := (hlb x).2; simp [WPc.inWait] at this
    · cases g <;> simp [WPc.seek, WPc.low]
    · cases g <;> simp
    · intro x
      apply hqu
      cases g with
      | none => simp [WPc.quits] at x
      | some g => cases g <;> simp_all [WPc.quits]
    · intro _ _ _; left; cases g <;> rfl
  | pend g =>
    rw [hp] at hsb hlb hpos hfind hqu
    refine ⟨?_, by simp [Fine]⟩
    obtain ⟨f1, f2, f3, f4, f5⟩ := go_facts g
    simp only
    split <;> refine h.goto hi _ hk ?_ ?_ (fun _ => hpos.2 rfl) ?_ ?_ ?_ ?_ <;> cases g <;>
      simp_all [WPc.inSpin, WPc.inWait, WPc.seek, WPc.low, WPc.quits]
  | pendSet g =>
    rw [hp] at hsb hlb hpos hfind hqu
    refine ⟨?_, by simp [Fine]⟩
    obtain ⟨f1, f2, f3, f4, f5⟩ := go_facts g
    refine h.wgo hi _ s.spin s.sleep s.queue true hk (fun _ _ => rfl) (fun _ _ => rfl) id h.sp2 ?_ ?_ (fun _ => hpos.2 rfl) ?_ ?_ ?_ ?_ <;>
      cases g <;> simp_all [WPc.inSpin, WPc.inWait, WPc.seek, WPc.low, WPc.quits]
  | steal =>
    rw [hp] at hsb hlb hpos hfind hqu
    refine ⟨?_, by simp [Fine]⟩
    simp only
    split <;> refine h.goto hi _ hk ?_ ?_ (fun _ => hpos.2 rfl) ?_ ?_ ?_ ?_ <;>
      simp_all [WPc.inSpin, WPc.inWait, WPc.seek, WPc.low, WPc.quits]
  | wait0 =>
    rw [hp] at hsb hlb hpos hfind hqu
    have h0 : s.sleep.getLsbD i = false := by
      cases hb : s.sleep.getLsbD i with
      | false => rfl
      | true => have := (hlb hb).2; simp [WPc.inWait] at this
    refine ⟨?_, by simp [Fine, (and_bit_zero _ _).2 h0]⟩
    refine h.wgo hi _ s.spin (s.sleep ||| bit i) s.queue s.pending hk (fun _ _ => rfl) ?_ id h.sp2 ?_ ?_ (fun _ => hpos.2 rfl) ?_ ?_ ?_ ?_
    · intro j hj; rw [set_get _ i64]; simp [hj]
    · intro x; have := (hsb x).2; simp [WPc.inSpin] at this
    · intro _; rfl
    · intro _; left; rw [set_get _ i64]; simp
    · simp
    · simp [WPc.quits]
    · intro _ _ _; left; rfl
  | waitClr g =>
    rw [hp] at hsb hlb hpos hfind hqu
    refine ⟨?_, by simp [Fine]⟩
    have := h.wmove hi (.deferClr (some g)) s.spin (s.sleep &&& ~~~bit i) (s.count i) s.queue s.pending
      (if s.sleep &&& bit i = 0 then some .spinLoad else none) hk (fun _ _ => rfl) (fun j hj => by rw [clear_get]; simp [hj]) id
      (by split <;> rfl) (by split <;> trivial) h.sp2 (fun x => by have := (hsb x).2; simp [WPc.inSpin] at this)
      (fun _ => rfl) ⟨hpos.1, fun _ => hpos.2 rfl⟩ (by simp [WPc.seek, WPc.low]) (by simp)
      (fun x => hqu (by cases g <;> simp_all [WPc.quits])) (by simp [WPc.low])
    rw [upd_self] at this
    exact this
  | deferClr g =>
    rw [hp] at hsb hlb hpos hfind hqu
    refine ⟨?_, by simp [Fine]⟩
    refine h.wgo hi _ s.spin (s.sleep &&& ~~~bit i) s.queue s.pending hk (fun _ _ => rfl) ?_ id h.sp2 ?_ ?_ (fun _ => hpos.2 rfl) ?_ ?_ ?_ ?_
    · intro j hj; rw [clear_get]; simp [hj]
    · intro x; have := (hsb x).2; simp [WPc.inSpin] at this
    · rw [clear_get]; simp
    all_goals
      cases g with
      | none => simp [WPc.seek, WPc.low, WPc.quits]
      | some g => cases g <;> simp_all [WPc.seek, WPc.low, WPc.quits, go]
  | sub =>
    rw [hp] at hsb hlb hpos hfind hqu
    refine ⟨?_, by simp [Fine]⟩
    have h1 := hpos.2 rfl
    have := h.wmove hi (if s.count i = 1 then .futex else .chk) s.spin s.sleep (s.count i - 1) s.queue s.pending none hk (fun _ _ => rfl)
      (fun _ _ => rfl) id rfl trivial h.sp2 ?_ ?_ ?_ ?_ ?_ ?_ ?_
    · rw [setK_self (by exact hk)] at this; exact this
    · intro x; have := (hsb x).2; simp [WPc.inSpin] at this
    · intro x; split <;> rfl
    · split <;> simp [WPc.down] <;> omega
    · have := hfind rfl
      simp only [WPc.need, WPc.down] at this
      split
      · intro _
        rcases this with h' | h' | h'
        · exact .inl h'
        · exact .inr (.inl h')
        · simp at h'; omega
      · simp [WPc.seek, WPc.low]
    · split <;> simp
    · split <;> simp [WPc.quits]
    · intro _ _ hu
      unfold Up at hu
      rw [hp] at hu
      simp only [WPc.low, WPc.need, WPc.down] at hu
      split
      · rcases hu with h' | h' | h'
        · simp at h'
        · exact .inr (.inr (.inl h'))
        · simp at h'; omega
      · exact .inr (.inl rfl)
  | futex =>
    rw [hp] at hsb hlb hpos hfind hqu
    refine ⟨?_, by simp [Fine]⟩
    simp only
    split <;> refine h.goto hi _ hk ?_ ?_ ?_ ?_ ?_ ?_ ?_ <;>
      simp_all [WPc.inSpin, WPc.inWait, WPc.seek, WPc.low, WPc.quits, WPc.need, WPc.down, Up]
  | asleep => exact ⟨h, by simp [Fine]⟩
  | reload =>
    rw [hp] at hsb hlb hpos hfind hqu
    refine ⟨?_, by simp [Fine]⟩
    simp only
    split
    · refine h.goto hi _ hk ?_ ?_ ?_ ?_ ?_ ?_ ?_ <;>
        simp_all [WPc.inSpin, WPc.inWait, WPc.seek, WPc.low, WPc.quits, WPc.need, WPc.down, Up]
    · refine h.goto hi _ hk ?_ ?_ (fun _ => by omega) ?_ ?_ ?_ ?_ <;>
        simp_all [WPc.inSpin, WPc.inWait, WPc.seek, WPc.low, WPc.quits, WPc.need, WPc.down, Up]
  | chk =>
    rw [hp] at hsb hlb hpos hfind hqu
    have h1 := hpos.2 rfl
    refine ⟨?_, by simp only [Fine]; rw [if_pos (by omega)]; simp⟩
    refine h.goto hi _ hk ?_ ?_ (fun _ => h1) ?_ ?_ ?_ ?_ <;> simp_all [WPc.inSpin, WPc.inWait, WPc.seek, WPc.low, WPc.quits]
  | exited => exact ⟨h, by simp [Fine]⟩

/-- Another thread moves and changes neither masks nor counters nor workers. -/
theorem Inv.cgo {s : St} (h : Inv s) (c : Nat) (p : CPc) (hst : ∀ i, p = .stop i ∨ p = .stopFutex i → s.stopped = true)
    (hf : ∀ i, s.c c ≠ .stopFutex i) : Inv (s.toC c p) := by
  have hfu : ∀ i, Futexing s i → Futexing (s.toC c p) i := by
    rintro i (h' | ⟨c', h'⟩)
    · exact .inl h'
    · refine .inr ⟨c', ?_⟩
      have : c' ≠ c := by rintro rfl; exact hf i h'
      show upd s.c c p c' = _
      rw [upd_ne _ _ this]; exact h'
  constructor
  case n1 => exact h.n1
  case n64 => exact h.n64
  case sb => exact h.sb
  case lb => exact h.lb
  case pos => exact h.pos
  case find => exact h.find
  case fut => exact fun i a b => hfu i (h.fut i a b)
  case sp2 => exact h.sp2
  case ok => exact h.ok
  case resp => exact h.resp
  case quits => exact h.quits
  case cst =>
    intro c' i
    show upd s.c c p c' = _ ∨ upd s.c c p c' = _ → _
    by_cases e : c' = c
    · subst e; rw [upd_same]; exact hst i
    · rw [upd_ne _ _ e]; exact h.cst c' i

/-- Another thread has put fibers into the run queue and starts to wake workers. -/
theorem Inv.queued {s : St} (h : Inv s) (c : Nat) (q : List Nat) (k : K) (hk : s.k (.client c) = none) (ho : k.Ok s.n) (hs : k.search = true) :
    Inv (setK { s with queue := q } (.client c) (some k)) := by
  have hin : ∀ j, Inflight s j → Inflight (setK { s with queue := q } (.client c) (some k)) j := by
    rintro j ⟨t', h'⟩
    refine ⟨t', ?_⟩
    by_cases e : t' = .client c
    · subst e; rw [hk] at h'; simp [pendOf] at h'
    · simpa [setK, e] using h'
  constructor
  case n1 => exact h.n1
  case n64 => exact h.n64
  case sb => exact h.sb
  case lb => exact h.lb
  case pos => exact h.pos
  case find =>
    intro j hj
    rcases h.find j hj with h' | h' | h'
    · exact .inl h'
    · exact .inr (.inl (hin j h'))
    · exact .inr (.inr h')
  case fut =>
    intro j hj hc
    rcases h.fut j hj hc with ⟨t', r', h'⟩ | h'
    · refine .inl ⟨t', r', ?_⟩
      have e : t' ≠ .client c := by rintro rfl; rw [hk] at h'; simp at h'
      simpa [setK, e] using h'
    · exact .inr h'
  case sp2 => exact h.sp2
  case ok =>
    intro t'
    by_cases e : t' = .client c
    · simpa [setK, e, okOf] using ho
    · simpa [setK, e] using h.ok t'
  case resp => exact fun _ _ => .inl ⟨.client c, by simpa [setK, searchOf] using hs⟩
  case quits => exact h.quits
  case cst => exact h.cst

/-- `PersistentWake` stores. -/
theorem Inv.persist {s : St} (h : Inv s) (c i : Nat) (hc : s.c c = .stop i) :
    Inv { s.toC c (.stopFutex i) with count := upd s.count i (2 ^ 30) } := by
  have hst := h.cst c i (.inl hc)
  constructor
  case n1 => exact h.n1
  case n64 => exact h.n64
  case sb => exact h.sb
  case lb => exact h.lb
  case pos =>
    intro j
    show 0 ≤ upd s.count i (2 ^ 30) j ∧ (_ → 1 ≤ upd s.count i (2 ^ 30) j)
    by_cases e : j = i
    · subst e; rw [upd_same]; exact ⟨by decide, fun _ => by decide⟩
    · rw [upd_ne _ _ e]; exact h.pos j
  case find =>
    intro j hj
    rcases h.find j hj with h' | h' | h'
    · exact .inl h'
    · exact .inr (.inl h')
    · right; right
      show _ ≤ upd s.count i (2 ^ 30) j
      by_cases e : j = i
      · subst e; rw [upd_same]; unfold WPc.need; split <;> decide
      · rw [upd_ne _ _ e]; exact h'
  case fut =>
    intro j hj hcnt
    by_cases e : j = i
    · subst e; exact .inr ⟨c, by simp [St.toC]⟩
    · have hcnt : 1 ≤ upd s.count i (2 ^ 30) j := hcnt
      rw [upd_ne _ _ e] at hcnt
      rcases h.fut j hj hcnt with h' | ⟨c', h'⟩
      · exact .inl h'
      · refine .inr ⟨c', ?_⟩
        have : c' ≠ c := by rintro rfl; rw [hc] at h'; simp at h'
        show upd s.c c _ c' = _
        rw [upd_ne _ _ this]; exact h'
  case sp2 => exact h.sp2
  case ok => exact h.ok
  case resp => intro hs; rw [show s.stopped = false from hs] at hst; simp at hst
  case quits => exact h.quits
  case cst => exact fun _ _ _ => hst

/-- `PersistentWake` is over. -/
theorem Inv.persisted {s : St} (h : Inv s) (c i : Nat) (hc : s.c c = .stopFutex i) (hw : s.w i ≠ .asleep) : Inv (s.toC c (.stop (i + 1))) := by
  have hst := h.cst c i (.inr hc)
  constructor
  case n1 => exact h.n1
  case n64 => exact h.n64
  case sb => exact h.sb
  case lb => exact h.lb
  case pos => exact h.pos
  case find => exact h.find
  case fut =>
    intro j hj hcnt
    rcases h.fut j hj hcnt with h' | ⟨c', h'⟩
    · exact .inl h'
    · refine .inr ⟨c', ?_⟩
      have : c' ≠ c := by
        rintro rfl; rw [hc] at h'; injection h' with h'; subst h'; exact hw hj
      show upd s.c c _ c' = _
      rw [upd_ne _ _ this]; exact h'
  case sp2 => exact h.sp2
  case ok => exact h.ok
  case resp => exact h.resp
  case quits => exact h.quits
  case cst => exact fun _ _ _ => hst

/-- `StartFibers` is only in use for groups it works for. -/
def CInv (s : St) : Prop := ∀ c fs, s.c c = .batch fs → s.n ≤ 32

theorem fine_pushed (fs : List Nat) : Fine (fs.map .pushed) := by
  constructor <;> simp

theorem Inv.client {s : St} (h : Inv s) (hcb : CInv s) (c : Nat) (hk : s.k (.client c) = none) (b : Bool) :
    Inv (clientStep s c b).1 ∧ Fine (clientStep s c b).2 := by
  unfold clientStep
  cases hp : s.c c with
  | idle => exact ⟨h, by simp [Fine]⟩
  | push f =>
    simp only
    split
    · refine ⟨?_, by simp [Fine]⟩
      exact (h.cgo c .idle (by simp) (by simp [hp])).queued c (s.queue ++ [f]) .spinLoad hk trivial rfl
    · refine ⟨?_, by simp [Fine]⟩
      exact h.cgo c _ (by split <;> simp) (by simp [hp])
  | batch fs =>
    simp only
    split
    · refine ⟨?_, fine_pushed fs⟩
      have h' := h.cgo c .idle (by simp) (by simp [hp])
      split
      · rename_i h0
        rw [setK_self (by exact hk)]
        have : fs = [] := by simpa using h0
        subst this
        simp only [List.append_nil]
        exact h'
      · split
        · exact h'.queued c (s.queue ++ fs) .spinLoad hk trivial rfl
        · exact h'.queued c (s.queue ++ fs) (.batch fs.length) hk ⟨by omega, hcb c fs hp⟩ rfl
    · exact ⟨h, by simp [Fine]⟩
  | stop i =>
    simp only
    split
    · exact ⟨h.persist c i hp, by simp [Fine]⟩
    · exact ⟨h.cgo c .idle (by simp) (by simp [hp]), by simp [Fine]⟩
  | stopFutex i => exact ⟨(h.wake i).persisted c i hp (wake_ne _ _), by simp [Fine]⟩

theorem kstep_same (s : St) (t : Thr) (b : Bool) (k : K) : (kstep s t b k).1.c = s.c ∧ (kstep s t b k).1.n = s.n := by
  cases k <;> simp only [kstep] <;> (repeat' split) <;> exact ⟨rfl, rfl⟩

theorem workerStep_same (s : St) (i : Nat) (b : Bool) : (workerStep s i b).1.c = s.c ∧ (workerStep s i b).1.n = s.n := by
  simp only [workerStep] ; repeat' split
  all_goals exact ⟨rfl, rfl⟩

theorem CInv.step {s : St} (h : CInv s) (a : Act) (ha : match a with | .batch _ _ => s.n ≤ 32 | _ => True) : CInv (step s a).1 := by
  have hup : ∀ c p (s' : St), s'.c = upd s.c c p → s'.n = s.n → (∀ fs, p = .batch fs → s.n ≤ 32) → CInv s' := by
    intro c p s' h1 h2 h3 c' fs hc
    rw [h2]
    rw [h1] at hc
    by_cases e : c' = c
    · subst e; rw [upd_same] at hc; exact h3 fs hc
    · rw [upd_ne _ _ e] at hc; exact h c' fs hc
  have hsame : ∀ s' : St, s'.c = s.c → s'.n = s.n → CInv s' := by
    intro s' h1 h2 c fs hc; rw [h2]; rw [h1] at hc; exact h c fs hc
  cases a with
  | push c f => simp only [Sched.step]; split <;> first | exact hup c _ _ rfl rfl (by simp) | exact h
  | batch c fs => simp only [Sched.step]; split <;> first | exact hup c _ _ rfl rfl (fun _ _ => ha) | exact h
  | stop c => simp only [Sched.step]; split <;> first | exact hup c _ _ rfl rfl (by simp) | exact h
  | client c b =>
    simp only [Sched.step]
    split
    · exact hsame _ (kstep_same _ _ _ _).1 (kstep_same _ _ _ _).2
    · unfold clientStep
      split
      · exact h
      · split
        · exact hup c _ _ rfl rfl (by simp)
        · exact hup c _ _ rfl rfl (by split <;> simp)
      · split
        · exact hup c _ _ rfl rfl (by simp)
        · exact h
      · split
        · exact hup c _ _ rfl rfl (by simp)
        · exact hup c _ _ rfl rfl (by simp)
      · exact hup c _ _ rfl rfl (by simp)
  | worker i b =>
    simp only [Sched.step]
    split
    · split
      · exact hsame _ (kstep_same _ _ _ _).1 (kstep_same _ _ _ _).2
      · exact hsame _ (workerStep_same _ _ _).1 (workerStep_same _ _ _).2
    · exact h
  | steal => simp only [Sched.step]; split <;> first | exact hsame _ rfl rfl | exact h
  | spurious i => simp only [Sched.step]; split <;> first | exact hsame _ rfl rfl | exact h

theorem Inv.step {s : St} (h : Inv s) (hc : CInv s) (a : Act) : Inv (step s a).1 ∧ Fine (step s a).2 := by
  cases a with
  | push c f =>
    simp only [Sched.step]
    split
    · rename_i hi; exact ⟨h.cgo c _ (by simp) (by simp [hi.1]), by simp [Fine]⟩
    · exact ⟨h, by simp [Fine]⟩
  | batch c fs =>
    simp only [Sched.step]
    split
    · rename_i hi; exact ⟨h.cgo c _ (by simp) (by simp [hi.1]), by simp [Fine]⟩
    · exact ⟨h, by simp [Fine]⟩
  | stop c =>
    simp only [Sched.step]
    split
    · rename_i hi
      have h' : Inv { s with stopped := true } := by
        obtain ⟨n1, n64, sb, lb, pos, find, fut, sp2, ok, resp, quits, cst⟩ := h
        constructor
        case resp => intro h; simp at h
        case quits => exact fun _ _ => rfl
        case cst => exact fun _ _ _ => rfl
        all_goals assumption
      exact ⟨h'.cgo c (.stop 0) (fun _ _ => rfl) (fun i => by simp [hi.1]), by simp [Fine]⟩
    · exact ⟨h, by simp [Fine]⟩
  | client c b =>
    simp only [Sched.step]
    split
    · rename_i k hk
      have := h.kstep hk b
      exact ⟨this.1, by simp [this.2, Fine]⟩
    · rename_i hk; exact h.client hc c hk b
  | worker i b =>
    simp only [Sched.step]
    split
    · rename_i hi
      split
      · rename_i k hk
        have := h.kstep hk b
        exact ⟨this.1, by simp [this.2, Fine]⟩
      · rename_i hk; exact h.worker hi hk b
    · exact ⟨h, by simp [Fine]⟩
  | steal =>
    simp only [Sched.step]
    split
    · rename_i f q hq
      refine ⟨?_, by simp [Fine]⟩
      obtain ⟨n1, n64, sb, lb, pos, find, fut, sp2, ok, resp, quits, cst⟩ := h
      constructor
      case resp => exact fun hs _ => resp hs (by simp [hq])
      all_goals assumption
    · exact ⟨h, by simp [Fine]⟩
  | spurious i =>
    simp only [Sched.step]
    split
    · rename_i hw
      have := h.wake i
      rw [if_pos hw] at this
      exact ⟨this, by simp [Fine]⟩
    · exact ⟨h, by simp [Fine]⟩

theorem step_n (s : St) (a : Act) : (step s a).1.n = s.n := by
  cases a <;> simp only [step, clientStep] <;> (repeat' split) <;>
    first | rfl | exact (kstep_same _ _ _ _).2 | exact (workerStep_same _ _ _).2

theorem init_inv (n cap : Nat) (h1 : 1 ≤ n) (h2 : n ≤ 64) : Inv (init n cap) := by
  constructor <;> simp [init, h1, h2, WPc.seek, WPc.low, WPc.quits, okOf]
  have : bits 0#64 = 0 := bits_zero
  omega

end Verif.Fiber.Sched
