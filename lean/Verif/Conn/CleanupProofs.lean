import Verif.Conn.Cleanup

/-! Proofs about the end of a fiber connection (C83, C84). -/

namespace Verif.Conn.Cleanup

def State.zero (s : State) : Prop := (∀ d, s.events d = 0) ∧ s.errEvents = 0

def Seen (s : State) : Chk → Prop
  | .pending => True
  | .read => s.pending = true
  | .write => s.pending = true ∧ s.events .read = 0
  | .error => s.pending = true ∧ s.events .read = 0 ∧ s.events .write = 0
  | .take => s.pending = true ∧ s.zero
  | .submit => s.pending = true ∧ s.zero

def RPc.submits : RPc → Nat
  | .chk _ .submit _ => 1
  | _ => 0

def RPc.checks : RPc → Prop
  | .chk _ _ _ => True
  | _ => False

def Cl.begun : Cl → Bool
  | .none => false
  | .queued => false
  | _ => true

def Fib.on : Fib → Nat
  | .none => 0
  | _ => 1

def EFib.on : EFib → Nat
  | .none => 0
  | _ => 1

def Cl.on : Cl → Nat
  | .none => 0
  | _ => 1

/-- Who is to bring the counter to zero. -/
def State.busy (s : State) (d : Dir) : Nat := (s.fib d).on + s.tasks.count (.suppress d) + s.tasks.count (.reset d)

structure Inv (keep : Bool) (s : State) : Prop where
  ev : ∀ d, s.busy d = min 1 (s.events d)
  er : s.errEvents = s.efib.on
  es : s.errSeen = false → s.errEvents = 0
  pe : s.pending = !s.enabled
  kl : s.submitting.toNat + s.tasks.count .kill + s.pending.toNat = s.killed.toNat
  ck : ∀ c ∈ s.checkers, Seen s c
  rk : ∀ b c a, s.reactor = .chk b c a → Seen s c
  tk : s.taken = true → s.pending = true ∧ s.zero
  sb : s.checkers.count .submit + s.reactor.submits + s.cl.on = s.taken.toNat
  cn : s.cleanups = s.cl.begun.toNat
  un : s.cl ≠ .none → s.unavailable = true
  wr : s.cl = .closed ∨ s.cl = .done → s.writing = false
  rr : keep = false → s.cl.begun = true → ∀ c a, s.reactor ≠ .chk false c a
  sp : ∀ b c d, s.reactor = .chk b c (some d) → b = true
  kp : s.pending = true → s.taken = false → (∃ d, 0 < s.events d) ∨ 0 < s.errEvents ∨ s.checkers ≠ [] ∨ s.reactor.checks

theorem Inv.init (keep : Bool) (ext : Nat) : Inv keep (.init ext) := by
  constructor <;> simp [State.init, RPc.submits, Cl.begun, State.busy, Fib.on, EFib.on, Cl.on]

@[simp] theorem upd_same {α} (f : Dir → α) (d v) : upd f d v d = v := by simp [upd]
theorem upd_ne {α} (f : Dir → α) {d e} (v) (h : e ≠ d) : upd f d v e = f e := by simp [upd, h]

theorem Fib.on_pos {f : Fib} (h : f ≠ .none) : f.on = 1 := by cases f <;> first | rfl | exact absurd rfl h
theorem Fib.on_zero {f : Fib} (h : f.on = 0) : f = .none := by cases f <;> first | rfl | cases h

/-- Steps that raise no counter keep what was seen. -/
theorem Seen.mono {s t : State} {c} (h : Seen s c) (hp : s.pending = true → t.pending = true)
    (he : s.pending = true → ∀ d, s.events d = 0 → t.events d = 0) (hr : s.pending = true → s.errEvents = 0 → t.errEvents = 0) : Seen t c := by
  cases c <;> simp only [Seen, State.zero] at h ⊢
  · exact hp h
  · exact ⟨hp h.1, he h.1 _ h.2⟩
  · exact ⟨hp h.1, he h.1 _ h.2.1, he h.1 _ h.2.2⟩
  · exact ⟨hp h.1, fun d => he h.1 _ (h.2.1 d), hr h.1 h.2.2⟩
  · exact ⟨hp h.1, fun d => he h.1 _ (h.2.1 d), hr h.1 h.2.2⟩

/-- As long as the connection is enabled counters may rise. -/
theorem Inv.rise {keep s t} (h : Inv keep s) (he : s.enabled = true)
    (hev : ∀ d, t.busy d = min 1 (t.events d)) (her : t.errEvents = t.efib.on) (hes : t.errSeen = false → t.errEvents = 0)
    (h1 : t = { s with events := t.events, fib := t.fib, errEvents := t.errEvents, errSeen := t.errSeen, efib := t.efib }) : Inv keep t := by
  have hp : s.pending = false := by rw [h.pe, he]; rfl
  have ht : s.taken = false := by
    cases hx : s.taken
    · rfl
    · have := (h.tk hx).1; rw [hp] at this; cases this
  have hp' : t.pending = false := by rw [h1]; exact hp
  have ht' : t.taken = false := by rw [h1]; exact ht
  refine ⟨hev, her, hes, ?_, ?_, ?_, ?_, ?_, ?_, ?_, ?_, ?_, ?_, ?_, ?_⟩
  · rw [h1]; exact h.pe
  · rw [h1]; exact h.kl
  · intro c hc
    rw [h1] at hc
    exact (h.ck c hc).mono (fun e => by rw [hp] at e; cases e) (fun e => by rw [hp] at e; cases e) (fun e => by rw [hp] at e; cases e)
  · intro b c a hc
    rw [h1] at hc
    exact (h.rk b c a hc).mono (fun e => by rw [hp] at e; cases e) (fun e => by rw [hp] at e; cases e) (fun e => by rw [hp] at e; cases e)
  · intro e; rw [ht'] at e; cases e
  · rw [h1]; exact h.sb
  · rw [h1]; exact h.cn
  · rw [h1]; exact h.un
  · rw [h1]; exact h.wr
  · rw [h1]; exact h.rr
  · rw [h1]; exact h.sp
  · intro e; rw [hp'] at e; cases e

theorem Inv.handle {keep s} (h : Inv keep s) (he : s.enabled = true) (d : Dir) : ∃ s', s.handle d = .ok s' ∧ Inv keep s' := by
  unfold State.handle
  have hev := h.ev d
  split
  · next h0 =>
    rw [h0] at hev
    have hf : s.fib d = .none := Fib.on_zero (by unfold State.busy at hev; omega)
    rw [if_pos hf]
    refine ⟨_, rfl, h.rise he ?_ h.er h.es rfl⟩
    intro e
    by_cases hd : e = d
    · subst hd
      simp only [State.busy, upd_same, Fib.on] at hev ⊢
      rw [hf] at hev
      simp only [Fib.on] at hev
      omega
    · have := h.ev e
      simp only [State.busy, upd_ne _ _ hd] at this ⊢
      exact this
  · next h0 =>
    refine ⟨_, rfl, h.rise he ?_ h.er h.es rfl⟩
    intro e
    by_cases hd : e = d
    · subst hd
      simp only [State.busy, upd_same] at hev ⊢
      omega
    · have := h.ev e
      simp only [State.busy, upd_ne _ _ hd] at this ⊢
      exact this

/-- What a step of `QueueCleanupCallbackCheck` does. -/
theorem Inv.checkStep {keep s c} (h : Inv keep s) (hc : Seen s c) (hm : c = .submit → s.cl = .none ∧ s.taken = true) :
    s.checkStep c = .blocked ∨ ∃ s' c', s.checkStep c = .ok s' c' ∧
      ((s' = s ∧ c ≠ .submit ∧ c' ≠ some .submit) ∨
       (c = .take ∧ s.taken = false ∧ s' = { s with taken := true } ∧ c' = some .submit) ∨
       (c = .submit ∧ s.cl = .none ∧ s' = { s with unavailable := true, cl := .queued } ∧ c' = none)) ∧
      (∀ x, c' = some x → Seen s' x) ∧
      (c' = none → s'.pending = true → s'.taken = false → (∃ d, 0 < s'.events d) ∨ 0 < s'.errEvents) := by
  cases c with
  | pending =>
    right
    refine ⟨s, _, rfl, .inl ⟨rfl, by simp, by split <;> simp⟩, ?_, ?_⟩
    · intro x hx
      split at hx
      · injection hx with hx; subst hx; assumption
      · cases hx
    · intro hx hp
      rw [if_pos hp] at hx; cases hx
  | read =>
    right
    refine ⟨s, _, rfl, .inl ⟨rfl, by simp, by split <;> simp⟩, ?_, ?_⟩
    · intro x hx
      split at hx
      · next h0 => injection hx with hx; subst hx; exact ⟨hc, h0⟩
      · cases hx
    · intro hx _ _
      split at hx
      · cases hx
      · exact .inl ⟨.read, by omega⟩
  | write =>
    right
    refine ⟨s, _, rfl, .inl ⟨rfl, by simp, by split <;> simp⟩, ?_, ?_⟩
    · intro x hx
      split at hx
      · next h0 => injection hx with hx; subst hx; exact ⟨hc.1, hc.2, h0⟩
      · cases hx
    · intro hx _ _
      split at hx
      · cases hx
      · exact .inl ⟨.write, by omega⟩
  | error =>
    right
    refine ⟨s, _, rfl, .inl ⟨rfl, by simp, by split <;> simp⟩, ?_, ?_⟩
    · intro x hx
      split at hx
      · next h0 =>
        injection hx with hx; subst hx
        refine ⟨hc.1, ?_, h0⟩
        intro d; cases d
        · exact hc.2.1
        · exact hc.2.2
      · cases hx
    · intro hx _ _
      split at hx
      · cases hx
      · right; omega
  | take =>
    right
    simp only [State.checkStep]
    split
    · next ht =>
      refine ⟨s, none, rfl, .inl ⟨rfl, by simp, by simp⟩, by simp, ?_⟩
      intro _ _ h2; rw [ht] at h2; cases h2
    · next ht =>
      refine ⟨_, _, rfl, .inr (.inl ⟨trivial, by simpa using ht, rfl, rfl⟩), ?_, by simp⟩
      intro x hx
      injection hx with hx; subst hx
      exact hc
  | submit =>
    simp only [State.checkStep]
    split
    · exact .inl rfl
    · next hw =>
      right
      rw [if_neg (by simp [(hm rfl).1])]
      refine ⟨_, _, rfl, .inr (.inr ⟨trivial, (hm rfl).1, rfl, rfl⟩), by simp, ?_⟩
      intro _ _ h2
      rw [show s.taken = true from (hm rfl).2] at h2; cases h2

theorem count_set_of {l : List Chk} {k c c' x} (h : l[k]? = some c) :
    (l.set k c').count x + (if c = x then 1 else 0) = l.count x + (if c' = x then 1 else 0) := by
  induction l generalizing k with
  | nil => cases h
  | cons a l ih =>
    cases k with
    | zero =>
      simp at h; subst h
      simp only [List.set_cons_zero, List.count_cons]
      simp only [beq_iff_eq]; omega
    | succ k =>
      have := ih (k := k) (by simpa using h)
      simp only [List.set_cons_succ, List.count_cons]; omega

theorem count_erase_of {l : List Chk} {k c x} (h : l[k]? = some c) :
    (l.eraseIdx k).count x + (if c = x then 1 else 0) = l.count x := by
  induction l generalizing k with
  | nil => cases h
  | cons a l ih =>
    cases k with
    | zero =>
      simp at h; subst h
      simp only [List.eraseIdx_zero, List.tail_cons, List.count_cons, beq_iff_eq]
    | succ k =>
      have := ih (k := k) (by simpa using h)
      simp only [List.eraseIdx_cons_succ, List.count_cons]; omega

theorem Inv.submit {keep s} (h : Inv keep s) (hs : 0 < s.checkers.count .submit + s.reactor.submits) : s.cl = .none ∧ s.taken = true := by
  have := h.sb
  have ht : s.taken.toNat ≤ 1 := by cases s.taken <;> simp
  constructor
  · cases hc : s.cl
    · rfl
    all_goals rw [hc] at this; simp only [Cl.on] at this; omega
  · cases hx : s.taken
    · rw [hx] at this; simp at this; omega
    · rfl

theorem count_snoc {α} [DecidableEq α] (l : List α) (a x : α) : (l ++ [a]).count x = l.count x + if a = x then 1 else 0 := by
  rw [List.count_append, List.count_singleton]
  simp

/-- The fiber of an event leaves its loop and leaves a task behind. -/
theorem Inv.leave {keep s d} (h : Inv keep s) (hf : s.fib d ≠ .none) {t : Task} (ht : t = .suppress d ∨ t = .reset d) :
    Inv keep { s with fib := upd s.fib d .none, tasks := s.tasks ++ [t], checkers := s.checkers ++ [.pending] } := by
  refine ⟨?_, h.er, h.es, h.pe, ?_, ?_, h.rk, h.tk, ?_, h.cn, h.un, h.wr, h.rr, h.sp, fun _ _ => .inr (.inr (.inl (by simp)))⟩
  · intro e
    have := h.ev e
    simp only [State.busy, count_snoc] at this ⊢
    by_cases he : e = d
    · subst he
      rw [Fib.on_pos hf] at this
      rw [upd_same]
      rcases ht with rfl | rfl <;> simp [Fib.on] <;> omega
    · rw [upd_ne _ _ he]
      rcases ht with rfl | rfl <;> simp [Ne.symm he] <;> omega
  · have := h.kl
    simp only [count_snoc]
    rcases ht with rfl | rfl <;> simpa using this
  · intro c hc
    simp only [List.mem_append, List.mem_singleton] at hc
    rcases hc with hc | rfl
    · exact h.ck c hc
    · trivial
  · have := h.sb
    simp only [count_snoc]
    simpa using this

/-- The reactor takes a task that resets a counter. -/
theorem Inv.reset {keep s d ts r a} {t : Task} (h : Inv keep s) (ht : (t = .suppress d ∧ r = true) ∨ (t = .reset d ∧ a = none)) (hts : s.tasks = t :: ts) :
    Inv keep { s with tasks := ts, events := upd s.events d 0, reactor := .chk r .pending a } := by
  have hd := h.ev d
  simp only [State.busy, hts] at hd
  have hpos : 0 < s.events d := by
    rcases ht with ⟨rfl, _⟩ | ⟨rfl, _⟩ <;> simp at hd <;> omega
  have hnz : ¬ s.zero := fun hz => by have := hz.1 d; omega
  have hnt : s.taken = false := by
    cases hx : s.taken
    · rfl
    · exact absurd (h.tk hx).2 hnz
  have hcl : s.cl = .none := by
    have := h.sb
    rw [hnt] at this
    cases hc : s.cl <;> rw [hc] at this <;> simp [Cl.on] at this <;> rfl
  have hmono : ∀ d', s.events d' = 0 → upd s.events d 0 d' = 0 := by
    intro d' hd'
    by_cases e : d' = d
    · subst e; simp
    · rw [upd_ne _ _ e]; exact hd'
  refine ⟨?_, h.er, h.es, h.pe, ?_, ?_, ?_, ?_, ?_, h.cn, h.un, h.wr, ?_, ?_, fun _ _ => .inr (.inr (.inr trivial))⟩
  · intro e
    have := h.ev e
    simp only [State.busy, hts] at this ⊢
    by_cases he : e = d
    · subst he
      rw [upd_same]
      rcases ht with ⟨rfl, _⟩ | ⟨rfl, _⟩ <;> simp at this ⊢ <;> omega
    · rw [upd_ne _ _ he]
      rcases ht with ⟨rfl, _⟩ | ⟨rfl, _⟩ <;> simp [List.count_cons, Ne.symm he] at this ⊢ <;> omega
  · have := h.kl
    rw [hts] at this
    rcases ht with ⟨rfl, _⟩ | ⟨rfl, _⟩ <;> simpa [List.count_cons] using this
  · intro c hc
    exact (h.ck c hc).mono id (fun _ => hmono) (fun _ => id)
  · intro b c a' hc
    injection hc with _ hc
    subst hc
    trivial
  · intro e; rw [show s.taken = false from hnt] at e; cases e
  · have h1 := h.sb
    rw [hnt, hcl] at h1
    simp [Cl.on] at h1
    show s.checkers.count .submit + 0 + s.cl.on = s.taken.toNat
    rw [hnt, hcl]
    simp [Cl.on]
    exact h1.1
  · intro _ hb
    rw [show s.cl = .none from hcl] at hb
    cases hb
  · intro b c e hc
    injection hc with h1 _ h3
    subst h1 h3
    rcases ht with ⟨_, rfl⟩ | ⟨_, h4⟩
    · rfl
    · cases h4

theorem Inv.exec {keep s} (h : Inv keep s) (act : Act) : s.exec keep act = .blocked ∨ ∃ s', s.exec keep act = .ok s' ∧ Inv keep s' := by
  cases act with
  | event d =>
    simp only [State.exec]
    split
    · next hc => exact .inr (h.handle hc.2 d)
    · exact .inl rfl
  | close =>
    simp only [State.exec]
    split
    · next hc =>
      right
      split
      · exact ⟨s, rfl, h⟩
      · next hs =>
        have h0 := h.es (by simpa using hs)
        have he : s.efib = .none := by
          have := h.er
          rw [h0] at this
          cases hx : s.efib <;> rw [hx] at this <;> first | rfl | cases this
        rw [if_neg (by simp [h0, he])]
        refine ⟨_, rfl, h.rise hc.2 h.ev rfl (fun e => by cases e) rfl⟩
    · exact .inl rfl
  | start d =>
    simp only [State.exec]
    split
    · next hc =>
      right
      refine ⟨_, rfl, ?_, h.er, h.es, h.pe, h.kl, h.ck, h.rk, h.tk, h.sb, h.cn, h.un, h.wr, h.rr, h.sp, h.kp⟩
      intro e
      have := h.ev e
      simp only [State.busy] at this ⊢
      by_cases he : e = d
      · subst he; rw [upd_same]; rw [hc] at this; exact this
      · rw [upd_ne _ _ he]; exact this
    · exact .inl rfl
  | ret d r =>
    simp only [State.exec]
    split
    · next hc =>
      have key : ∀ f : Fib, f.on = 1 → Inv keep { s with fib := upd s.fib d f } := by
        intro f hf
        refine ⟨?_, h.er, h.es, h.pe, h.kl, h.ck, h.rk, h.tk, h.sb, h.cn, h.un, h.wr, h.rr, h.sp, h.kp⟩
        intro e
        have := h.ev e
        simp only [State.busy] at this ⊢
        by_cases he : e = d
        · subst he; rw [upd_same, hf]; rw [hc] at this; exact this
        · rw [upd_ne _ _ he]; exact this
      cases r with
      | ready => exact .inr ⟨_, rfl, key _ rfl⟩
      | suppress => exact .inr ⟨_, rfl, key _ rfl⟩
      | leaving =>
        dsimp only
        split
        · exact .inr ⟨_, rfl, key _ rfl⟩
        · exact .inl rfl
    · exact .inl rfl
  | next d =>
    simp only [State.exec]
    split
    · next hf =>
      right
      have hd := h.ev d
      simp only [State.busy, hf, Fib.on] at hd
      have hpos : s.events d ≠ 0 := by omega
      rw [if_neg hpos]
      split
      · next h1 =>
        have hmono : ∀ d', s.events d' = 0 → upd s.events d 0 d' = 0 := by
          intro d' hd'
          by_cases e : d' = d
          · subst e; simp
          · rw [upd_ne _ _ e]; exact hd'
        refine ⟨_, rfl, ?_, h.er, h.es, h.pe, h.kl, ?_, ?_, ?_, ?_, h.cn, h.un, h.wr, h.rr, h.sp, fun _ _ => .inr (.inr (.inl (by simp)))⟩
        · intro e
          have := h.ev e
          simp only [State.busy] at this ⊢
          by_cases he : e = d
          · subst he
            rw [upd_same, upd_same]
            simp only [Fib.on]
            omega
          · rw [upd_ne _ _ he, upd_ne _ _ he]; exact this
        · intro c hc
          simp only [List.mem_append, List.mem_singleton] at hc
          rcases hc with hc | rfl
          · exact (h.ck c hc).mono id (fun _ => hmono) (fun _ => id)
          · trivial
        · intro b c a hc
          exact (h.rk b c a hc).mono id (fun _ => hmono) (fun _ => id)
        · intro ht
          obtain ⟨h2, h3, h4⟩ := h.tk ht
          exact ⟨h2, fun d' => hmono _ (h3 d'), h4⟩
        · have := h.sb
          simp only [count_snoc]
          simpa using this
      · next h1 =>
        have hmono : ∀ d', s.events d' = 0 → upd s.events d (s.events d - 1) d' = 0 := by
          intro d' hd'
          by_cases e : d' = d
          · subst e; simp; omega
          · rw [upd_ne _ _ e]; exact hd'
        refine ⟨_, rfl, ?_, h.er, h.es, h.pe, h.kl, ?_, ?_, ?_, h.sb, h.cn, h.un, h.wr, h.rr, h.sp, fun _ _ => .inl ⟨d, ?_⟩⟩
        · intro e
          have := h.ev e
          simp only [State.busy] at this ⊢
          by_cases he : e = d
          · subst he
            rw [upd_same, upd_same]
            simp only [Fib.on]
            omega
          · rw [upd_ne _ _ he, upd_ne _ _ he]; exact this
        · intro c hc
          exact (h.ck c hc).mono id (fun _ => hmono) (fun _ => id)
        · intro b c a hc
          exact (h.rk b c a hc).mono id (fun _ => hmono) (fun _ => id)
        · intro ht
          obtain ⟨h2, h3, h4⟩ := h.tk ht
          exact ⟨h2, fun d' => hmono _ (h3 d'), h4⟩
        · dsimp only; rw [upd_same]; omega
    · next hf => exact .inr ⟨_, rfl, h.leave (by rw [hf]; simp) (.inl rfl)⟩
    · next hf => exact .inr ⟨_, rfl, h.leave (by rw [hf]; simp) (.inr rfl)⟩
    · exact .inl rfl
  | errStart =>
    simp only [State.exec]
    split
    · next hc =>
      right
      refine ⟨_, rfl, h.ev, ?_, h.es, h.pe, h.kl, h.ck, h.rk, h.tk, h.sb, h.cn, h.un, h.wr, h.rr, h.sp, h.kp⟩
      have := h.er; rw [hc] at this; exact this
    · exact .inl rfl
  | errRet =>
    simp only [State.exec]
    split
    · next hc =>
      right
      refine ⟨_, rfl, h.ev, ?_, h.es, h.pe, h.kl, h.ck, h.rk, h.tk, h.sb, h.cn, h.un, h.wr, h.rr, h.sp, h.kp⟩
      have := h.er; rw [hc.1] at this; exact this
    · exact .inl rfl
  | errNext =>
    simp only [State.exec]
    split
    · next hc =>
      right
      have he : s.errEvents = 1 := by have := h.er; rw [hc] at this; exact this
      rw [if_neg (by simp [he])]
      refine ⟨_, rfl, h.ev, rfl, fun _ => rfl, h.pe, h.kl, ?_, ?_, ?_, ?_, h.cn, h.un, h.wr, h.rr, h.sp, fun _ _ => .inr (.inr (.inl (by simp)))⟩
      · intro c hc
        simp only [List.mem_append, List.mem_singleton] at hc
        rcases hc with hc | rfl
        · exact (h.ck c hc).mono id (fun _ _ => id) (fun _ _ => rfl)
        · trivial
      · intro b c a hc
        exact (h.rk b c a hc).mono id (fun _ _ => id) (fun _ _ => rfl)
      · intro ht
        obtain ⟨h2, h3, h4⟩ := h.tk ht
        rw [he] at h4; cases h4
      · have := h.sb
        simp only [count_snoc]
        simpa using this
    · exact .inl rfl
  | check k =>
    simp only [State.exec]
    split
    · exact .inl rfl
    · next c hk =>
      have hmem : c ∈ s.checkers := List.mem_of_getElem? hk
      rcases h.checkStep (h.ck c hmem) (fun e => h.submit (by
          subst e
          have : 0 < s.checkers.count .submit := List.count_pos_iff.2 hmem
          omega)) with e | ⟨s', c', e, h1, h2, h3⟩
      · rw [e]; exact .inl rfl
      · right
        rw [e]
        cases c' with
        | some x =>
          refine ⟨_, rfl, ?_⟩
          have hcs := fun y => count_set_of (c' := x) (x := y) hk
          rcases h1 with ⟨rfl, g1, g2⟩ | ⟨rfl, g1, rfl, g2⟩ | ⟨_, _, _, g⟩
          · refine ⟨h.ev, h.er, h.es, h.pe, h.kl, ?_, h.rk, h.tk, ?_, h.cn, h.un, h.wr, h.rr, h.sp, fun _ _ => .inr (.inr (.inl ?_))⟩
            · intro y hy
              rcases List.mem_or_eq_of_mem_set hy with hy | rfl
              · exact h.ck y hy
              · exact h2 _ rfl
            · have := hcs .submit
              rw [if_neg g1, if_neg (fun e => g2 (by rw [e]))] at this
              have hs := h.sb
              dsimp only; omega
            · intro e
              have := congrArg List.length e
              simp at this
              rw [this] at hk; cases hk
          · injection g2 with g2
            subst g2
            have hz := h.ck _ hmem
            refine ⟨h.ev, h.er, h.es, h.pe, h.kl, ?_, h.rk, fun _ => hz, ?_, h.cn, h.un, h.wr, h.rr, h.sp, fun _ e => by cases e⟩
            · intro y hy
              rcases List.mem_or_eq_of_mem_set hy with hy | rfl
              · exact h.ck y hy
              · exact hz
            · have := hcs .submit
              rw [if_neg (by simp), if_pos rfl] at this
              have hs := h.sb
              rw [g1] at hs
              simp only [Bool.toNat_false, Bool.toNat_true] at hs ⊢
              omega
          · cases g
        | none =>
          refine ⟨_, rfl, ?_⟩
          have hcs := fun y => count_erase_of (x := y) hk
          rcases h1 with ⟨rfl, g1, g2⟩ | ⟨_, _, _, g⟩ | ⟨rfl, g1, rfl, g⟩
          · refine ⟨h.ev, h.er, h.es, h.pe, h.kl, ?_, h.rk, h.tk, ?_, h.cn, h.un, h.wr, h.rr, h.sp, ?_⟩
            · intro y hy
              exact h.ck y (List.mem_of_mem_eraseIdx hy)
            · have := hcs .submit
              rw [if_neg g1] at this
              have hs := h.sb
              dsimp only; omega
            · intro p1 p2
              rcases h3 rfl p1 p2 with g | g
              · exact .inl g
              · exact .inr (.inl g)
          · cases g
          · have hb : s.cl.begun = false := by rw [g1]; rfl
            refine ⟨h.ev, h.er, h.es, h.pe, h.kl, ?_, h.rk, h.tk, ?_, ?_, fun _ => rfl, fun e => (by simp at e), fun _ e => (by cases e), h.sp, ?_⟩
            · intro y hy
              exact h.ck y (List.mem_of_mem_eraseIdx hy)
            · have := hcs .submit
              rw [if_pos rfl] at this
              have hs := h.sb
              rw [g1] at hs
              simp only [Cl.on] at hs ⊢
              omega
            · have := h.cn; rw [hb] at this; exact this
            · intro p1 p2
              rcases h3 rfl p1 p2 with g | g
              · exact .inl g
              · exact .inr (.inl g)
  | kill =>
    simp only [State.exec]
    right
    split
    · exact ⟨s, rfl, h⟩
    · next hk =>
      refine ⟨_, rfl, h.ev, h.er, h.es, h.pe, ?_, h.ck, h.rk, h.tk, h.sb, h.cn, h.un, h.wr, h.rr, h.sp, h.kp⟩
      have := h.kl
      simp only [Bool.not_eq_true] at hk
      rw [hk] at this
      simp only [Bool.toNat_false, Bool.toNat_true] at this ⊢
      omega
  | killSubmit =>
    simp only [State.exec]
    split
    · next hk =>
      right
      refine ⟨_, rfl, ?_, h.er, h.es, h.pe, ?_, h.ck, h.rk, h.tk, h.sb, h.cn, h.un, h.wr, h.rr, h.sp, h.kp⟩
      · intro e
        have := h.ev e
        simp only [State.busy, count_snoc] at this ⊢
        simpa using this
      · have := h.kl
        rw [hk] at this
        simp only [count_snoc, Bool.toNat_false, Bool.toNat_true] at this ⊢
        simp
        omega
    · exact .inl rfl
  | task =>
    simp only [State.exec]
    split
    · next hi =>
      split
      · exact .inl rfl
      · next ts hts =>
        right
        have hk := h.kl
        rw [hts] at hk
        simp at hk
        have hp : s.pending = false := by
          cases hx : s.pending
          · rfl
          · rw [hx] at hk
            have : s.killed.toNat ≤ 1 := by cases s.killed <;> simp
            simp at hk; omega
        have he : s.enabled = true := by have := h.pe; rw [hp] at this; simpa using this
        have hnt : s.taken = false := by
          cases hx : s.taken
          · rfl
          · have := (h.tk hx).1; rw [hp] at this; cases this
        have hcl : s.cl = .none := by
          have := h.sb
          rw [hnt] at this
          cases hc : s.cl <;> rw [hc] at this <;> simp [Cl.on] at this <;> rfl
        rw [if_pos he]
        refine ⟨_, rfl, ?_, h.er, h.es, rfl, ?_, ?_, ?_, ?_, ?_, h.cn, h.un, h.wr, ?_, ?_, fun _ _ => .inr (.inr (.inr trivial))⟩
        · intro e
          have := h.ev e
          simp only [State.busy, hts] at this ⊢
          simpa using this
        · rw [hp] at hk
          simp only [Bool.toNat_false, Bool.toNat_true] at hk ⊢
          omega
        · intro c hc
          exact (h.ck c hc).mono (fun _ => rfl) (fun _ _ => id) (fun _ => id)
        · intro b c a hc
          injection hc with _ hc
          subst hc
          trivial
        · intro e; rw [show s.taken = false from hnt] at e; cases e
        · have h1 := h.sb
          rw [hi] at h1
          exact h1
        · intro _ hb
          rw [show s.cl = .none from hcl] at hb
          cases hb
        · intro b c e hc
          injection hc with h1 _ h3
          cases h3
      · next d ts hts => exact .inr ⟨_, rfl, h.reset (.inl ⟨rfl, rfl⟩) hts⟩
      · next d ts hts => exact .inr ⟨_, rfl, h.reset (.inr ⟨rfl, rfl⟩) hts⟩
    · exact .inl rfl
  | reactor again =>
    simp only [State.exec]
    split
    · exact .inl rfl
    · next r c after hr =>
      rcases h.checkStep (h.rk _ _ _ hr) (fun e => h.submit (by
          subst e
          rw [hr]
          simp [RPc.submits])) with e | ⟨s', c', e, h1, h2, h3⟩
      · rw [e]; exact .inl rfl
      · right
        rw [e]
        have hsub : s.reactor.submits = if c = .submit then 1 else 0 := by
          rw [hr]; cases c <;> rfl
        have hs := h.sb
        rw [hsub] at hs
        cases c' with
        | some x =>
          refine ⟨_, rfl, ?_⟩
          have hsub' : (RPc.chk r x after).submits = if x = .submit then 1 else 0 := by cases x <;> rfl
          rcases h1 with ⟨rfl, g1, g2⟩ | ⟨rfl, g1, rfl, g2⟩ | ⟨_, _, _, g⟩
          · refine ⟨h.ev, h.er, h.es, h.pe, h.kl, h.ck, ?_, h.tk, ?_, h.cn, h.un, h.wr, ?_, ?_, fun _ _ => .inr (.inr (.inr trivial))⟩
            · intro b c a hc
              injection hc with _ hc
              subst hc
              exact h2 _ rfl
            · rw [if_neg g1] at hs
              dsimp only
              rw [hsub', if_neg (fun e => g2 (by rw [e]))]
              exact hs
            · intro hk hb c a hc
              injection hc with hc
              subst hc
              exact h.rr hk hb _ _ hr
            · intro b c d hc
              injection hc with hc _ hd
              subst hc hd
              exact h.sp _ _ _ hr
          · injection g2 with g2
            subst g2
            have hz := h.rk _ _ _ hr
            refine ⟨h.ev, h.er, h.es, h.pe, h.kl, h.ck, ?_, fun _ => hz, ?_, h.cn, h.un, h.wr, ?_, ?_, fun _ e => by cases e⟩
            · intro b c a hc
              injection hc with _ hc
              subst hc
              exact hz
            · rw [g1] at hs
              simp only [RPc.submits, Bool.toNat_false, Bool.toNat_true] at hs ⊢
              rw [if_neg (by simp)] at hs
              omega
            · intro hk hb c a hc
              injection hc with hc
              subst hc
              exact h.rr hk hb _ _ hr
            · intro b c d hc
              injection hc with hc _ hd
              subst hc hd
              exact h.sp _ _ _ hr
          · cases g
        | none =>
          refine ⟨_, rfl, ?_⟩
          have hnr : ∀ b c a, (match after with | none => RPc.idle | some d => .after d) ≠ .chk b c a := by
            intro b c a; cases after <;> simp
          rcases h1 with ⟨rfl, g1, g2⟩ | ⟨_, _, _, g⟩ | ⟨rfl, g1, rfl, g⟩
          · refine ⟨h.ev, h.er, h.es, h.pe, h.kl, h.ck, fun b c a hc => absurd hc (hnr b c a), h.tk, ?_, h.cn, h.un, h.wr, fun _ _ c a => hnr _ c a,
              fun b c d hc => absurd hc (hnr b c _), ?_⟩
            · rw [if_neg g1] at hs
              cases after <;> exact hs
            · intro p1 p2
              rcases h3 rfl p1 p2 with g | g
              · exact .inl g
              · exact .inr (.inl g)
          · cases g
          · have hb : s.cl.begun = false := by rw [g1]; rfl
            refine ⟨h.ev, h.er, h.es, h.pe, h.kl, h.ck, fun b c a hc => absurd hc (hnr b c a), h.tk, ?_, ?_, fun _ => rfl, fun e => (by simp at e), fun _ e => (by cases e),
              fun b c d hc => absurd hc (hnr b c _), ?_⟩
            · rw [if_pos rfl, g1] at hs
              cases after <;> simp only [Cl.on, RPc.submits] at hs ⊢ <;> omega
            · have := h.cn; rw [hb] at this; exact this
            · intro p1 p2
              rcases h3 rfl p1 p2 with g | g
              · exact .inl g
              · exact .inr (.inl g)
    · next d hr =>
      right
      have hI : Inv keep { s with reactor := .idle } := by
        refine ⟨h.ev, h.er, h.es, h.pe, h.kl, h.ck, fun b c a hc => (by cases hc), h.tk, ?_, h.cn, h.un, h.wr, fun _ _ c a => (by simp), fun b c d hc => (by cases hc), ?_⟩
        · have := h.sb; rw [hr] at this; exact this
        · intro p1 p2
          rcases h.kp p1 p2 with g | g | g | g
          · exact .inl g
          · exact .inr (.inl g)
          · exact .inr (.inr (.inl g))
          · rw [hr] at g; cases g
      split
      · next hc => exact hI.handle (by simp at hc; exact hc.1) d
      · exact ⟨_, rfl, hI⟩
  | cleanStart =>
    simp only [State.exec]
    split
    · next hc =>
      right
      have hs := h.sb
      rw [hc.1] at hs
      simp only [Cl.on] at hs
      have ht : s.taken = true := by
        cases hx : s.taken
        · rw [hx] at hs; simp at hs
        · rfl
      obtain ⟨hp, hz, he⟩ := h.tk ht
      have hen : s.enabled = false := by have := h.pe; rw [hp] at this; simpa using this
      rw [if_neg (by simp [hz, he, hen])]
      refine ⟨_, rfl, h.ev, h.er, h.es, h.pe, h.kl, h.ck, h.rk, h.tk, ?_, ?_, fun _ => h.un (by rw [hc.1]; simp), fun e => (by simp at e), ?_, h.sp, h.kp⟩
      · exact hs
      · have := h.cn; rw [hc.1] at this
        dsimp only; rw [this]; rfl
      · intro hk _ c a hr
        rcases hc.2 with e | e
        · rw [hk] at e; cases e
        · rw [show s.reactor = .chk false c a from hr] at e; cases e
    · exact .inl rfl
  | cleanClose =>
    simp only [State.exec]
    split
    · next hc =>
      right
      have hs := h.sb
      have hn := h.cn
      have hr := h.rr
      rw [hc.1] at hs hn hr
      exact ⟨_, rfl, h.ev, h.er, h.es, h.pe, h.kl, h.ck, h.rk, h.tk, hs, hn, fun _ => rfl, fun _ => hc.2, hr, h.sp, h.kp⟩
    · exact .inl rfl
  | cleanEnd =>
    simp only [State.exec]
    split
    · next hc =>
      right
      have hs := h.sb
      have hn := h.cn
      have hr := h.rr
      have hu := h.un (by rw [hc]; simp)
      rw [hc] at hs hn hr
      exact ⟨_, rfl, h.ev, h.er, h.es, h.pe, h.kl, h.ck, h.rk, h.tk, hs, hn, fun _ => hu, fun _ => h.wr (.inl hc), hr, h.sp, h.kp⟩
    · exact .inl rfl
  | sendLock =>
    simp only [State.exec]
    split
    · exact .inl rfl
    · right
      split
      · exact ⟨s, rfl, h⟩
      · next hu =>
        refine ⟨_, rfl, h.ev, h.er, h.es, h.pe, h.kl, h.ck, h.rk, h.tk, h.sb, h.cn, h.un, ?_, h.rr, h.sp, h.kp⟩
        intro e
        have := h.un (by rcases e with e | e <;> rw [show s.cl = _ from e] <;> simp)
        exact absurd this hu
  | sendUnlock =>
    simp only [State.exec]
    split
    · right
      exact ⟨_, rfl, h.ev, h.er, h.es, h.pe, h.kl, h.ck, h.rk, h.tk, h.sb, h.cn, h.un, fun _ => rfl, h.rr, h.sp, h.kp⟩
    · exact .inl rfl

/-! ## References -/

theorem mem_refs {l : List Task} {t} (h : t ∈ l) (ht : t.refs = 1) : 0 < (l.map Task.refs).sum := by
  induction l with
  | nil => cases h
  | cons a l ih =>
    simp only [List.map_cons, List.sum_cons]
    rcases List.mem_cons.1 h with rfl | h
    · omega
    · have := ih h; omega

/-- Who takes a step may use the connection. -/
theorem Inv.alive {keep s} (h : Inv keep s) (hm : keep = false ∨ 0 < s.ext) (h0 : s.refs = 0) (act : Act) : act.outside = true ∨ s.exec keep act = .blocked := by
  unfold State.refs at h0
  have hcl : s.cl = .done := by
    cases hx : s.cl <;> first | rfl | (rw [hx] at h0; simp only [Cl.refs] at h0; omega)
  have hk : keep = false := by
    rcases hm with hm | hm
    · exact hm
    · omega
  have hb : s.cl.begun = true := by rw [hcl]; rfl
  have hs := h.sb
  rw [hcl] at hs
  simp only [Cl.on] at hs
  have ht : s.taken = true := by
    cases hx : s.taken
    · rw [hx] at hs; simp at hs
    · rfl
  obtain ⟨hp, hz, he⟩ := h.tk ht
  have hen : s.enabled = false := by have := h.pe; rw [hp] at this; simpa using this
  have hfib : ∀ d, s.fib d = .none := by
    intro d
    have := h.ev d
    rw [hz d] at this
    exact Fib.on_zero (by unfold State.busy at this; omega)
  have hef : s.efib = .none := by
    have := h.er
    rw [he] at this
    cases hx : s.efib <;> rw [hx] at this <;> first | rfl | cases this
  have hck : s.checkers = [] := List.eq_nil_of_length_eq_zero (by omega)
  have hw : s.writing = false := h.wr (.inr hcl)
  have htasks : s.tasks = [] := by
    cases hx : s.tasks with
    | nil => rfl
    | cons t ts =>
      cases t with
      | kill => have := mem_refs (l := s.tasks) (t := .kill) (by rw [hx]; simp) rfl; omega
      | suppress d => have := mem_refs (l := s.tasks) (t := .suppress d) (by rw [hx]; simp) rfl; omega
      | reset d =>
        have := h.ev d
        rw [hz d] at this
        simp [State.busy, hx] at this
  have hr : s.reactor = .idle := by
    cases hx : s.reactor with
    | idle => rfl
    | chk r c a =>
      cases r with
      | true => rw [hx] at h0; simp only [RPc.refs, Bool.toNat_true] at h0; omega
      | false => exact absurd hx (h.rr hk hb c a)
    | after d => rw [hx] at h0; simp only [RPc.refs] at h0; omega
  have hsub : s.submitting = false := by
    have := h.kl
    rw [hp] at this
    have h1 : s.killed.toNat ≤ 1 := by cases s.killed <;> simp
    cases hx : s.submitting
    · rfl
    · rw [hx] at this; simp at this; omega
  cases act <;> simp [Act.outside, State.exec, hcl, hfib, hef, hck, hw, htasks, hr, hsub, hen]

/-- What no step changes. -/
def Same (act : Act) (s t : State) : Prop := t.ext = s.ext ∧ (act ≠ .kill → t.killed = s.killed)

theorem step_same {keep s s' act} (h : State.step keep s act = .ok s') : Same act s s' := by
  have key : ∀ d t, s.handle d = .ok t → Same act s t := by
    intro d t ht
    unfold State.handle at ht
    repeat' split at ht
    all_goals first | (injection ht with ht; subst ht; exact ⟨rfl, fun _ => rfl⟩) | cases ht
  have keyc : ∀ c t x, s.checkStep c = .ok t x → Same act s t := by
    intro c t x ht
    cases c <;> simp only [State.checkStep] at ht <;> (repeat' split at ht) <;> first | (injection ht with ht _; subst ht; exact ⟨rfl, fun _ => rfl⟩) | cases ht
  have key' : ∀ t, s.exec keep act = .ok t → Same act s t := by
    intro t ht
    cases act <;> simp only [State.exec] at ht
    case kill => split at ht <;> (injection ht with ht; subst ht; exact ⟨rfl, fun e => absurd rfl e⟩)
    case event d => split at ht; exact key d t ht; cases ht
    case check k =>
      split at ht
      · cases ht
      · split at ht
        · next e => injection ht with ht; subst ht; have := keyc _ _ _ e; exact this
        · next e => injection ht with ht; subst ht; have := keyc _ _ _ e; exact this
        · cases ht
        · cases ht
    case reactor again =>
      split at ht
      · cases ht
      · split at ht
        · next e => injection ht with ht; subst ht; have := keyc _ _ _ e; exact this
        · next e => injection ht with ht; subst ht; have := keyc _ _ _ e; exact this
        · cases ht
        · cases ht
      · split at ht
        · unfold State.handle at ht
          repeat' split at ht
          all_goals first | (injection ht with ht; subst ht; exact ⟨rfl, fun _ => rfl⟩) | cases ht
        · injection ht with ht; subst ht; exact ⟨rfl, fun _ => rfl⟩
    all_goals (repeat' split at ht) <;> first | (injection ht with ht; subst ht; exact ⟨rfl, fun _ => rfl⟩) | cases ht
  unfold State.step at h
  split at h
  · split at h
    · cases h
    · split at h <;> cases h
  · exact key' _ h

theorem Inv.step {keep s s' act} (h : Inv keep s) (hs : s.step keep act = .ok s') : Inv keep s' := by
  unfold State.step at hs
  split at hs
  · split at hs
    · cases hs
    · split at hs <;> cases hs
  · rcases h.exec act with e | ⟨t, e, ht⟩
    · rw [e] at hs; cases hs
    · rw [e] at hs; injection hs with hs; subst hs; exact ht

theorem Reach.inv {keep ext l s} (h : Reach keep ext l s) : Inv keep s ∧ s.ext = ext := by
  induction h with
  | init => exact ⟨.init _ _, rfl⟩
  | step _ hs ih => exact ⟨ih.1.step hs, by rw [(step_same hs).1]; exact ih.2⟩

/-! ## C83 -/

/-- `OnCleanup` is called at most once, and only after `Kill`. -/
theorem C83_once {keep ext l s} (h : Reach keep ext l s) : s.cleanups ≤ 1 ∧ (0 < s.cleanups → s.killed = true ∧ .kill ∈ l) := by
  have hi := h.inv.1
  have hc := hi.cn
  have hk : 0 < s.cleanups → s.killed = true := by
    intro h0
    have hb : s.cl.begun = true := by cases hx : s.cl.begun <;> rw [hx] at hc <;> simp at hc <;> first | omega | rfl
    have hs := hi.sb
    have hon : s.cl.on = 1 := by cases hx : s.cl <;> rw [hx] at hb <;> first | rfl | cases hb
    have ht : s.taken = true := by
      cases hx : s.taken
      · rw [hx, hon] at hs; simp at hs
      · rfl
    have := hi.kl
    rw [(hi.tk ht).1] at this
    cases hx : s.killed
    · rw [hx] at this; simp at this
    · rfl
  refine ⟨by rw [hc]; cases s.cl.begun <;> simp, fun h0 => ⟨hk h0, ?_⟩⟩
  have hkill := hk h0
  clear hc hk h0 hi
  induction h with
  | init => cases hkill
  | @step l s a s' hr hs ih =>
    by_cases hx : s.killed = true
    · exact List.mem_append_left _ (ih hx)
    · by_cases ha : a = .kill
      · subst ha; simp
      · exfalso
        have hkk := (step_same hs).2 ha
        rw [hkk] at hkill
        exact hx hkill

/-- When `OnCleanup` has begun, no callback runs or is about to run, and none begins later (the statement holds for all later states too). -/
theorem C83_alone {keep ext l s} (h : Reach keep ext l s) (hc : 0 < s.cleanups) : (∀ d, s.fib d = .none) ∧ s.efib = .none ∧ s.enabled = false := by
  obtain ⟨hi, _⟩ := h.inv
  have hn := hi.cn
  have hb : s.cl.begun = true := by cases hx : s.cl.begun <;> rw [hx] at hn <;> simp at hn <;> first | omega | rfl
  have hs := hi.sb
  have hon : s.cl.on = 1 := by cases hx : s.cl <;> rw [hx] at hb <;> first | rfl | cases hb
  have ht : s.taken = true := by
    cases hx : s.taken
    · rw [hx, hon] at hs; simp at hs
    · rfl
  obtain ⟨hp, hz, he⟩ := hi.tk ht
  refine ⟨?_, ?_, ?_⟩
  · intro d
    have := hi.ev d
    rw [hz d] at this
    exact Fib.on_zero (by unfold State.busy at this; omega)
  · have := hi.er
    rw [he] at this
    cases hx : s.efib <;> rw [hx] at this <;> first | rfl | cases this
  · have := hi.pe; rw [hp] at this; simpa using this

/-- When the socket is closed nobody writes, and no sender begins to. -/
theorem C83_closed {keep ext l s} (h : Reach keep ext l s) (hc : s.cl = .closed ∨ s.cl = .done) : s.writing = false ∧ s.unavailable = true := by
  obtain ⟨hi, _⟩ := h.inv
  exact ⟨hi.wr hc, hi.un (by rcases hc with e | e <;> rw [e] <;> simp)⟩

/-- No check fails and nothing uses the connection after it is destroyed, if `cleanup_task` runs in the reactor or someone else holds a reference. -/
theorem C83_safe {keep ext l s} (h : Reach keep ext l s) (hm : keep = false ∨ 0 < ext) (act : Act) : s.step keep act ≠ .fail := by
  obtain ⟨hi, he⟩ := h.inv
  unfold State.step
  split
  · next h0 =>
    rcases hi.alive (by rw [he]; exact hm) h0 act with e | e
    · rw [if_pos e]; simp
    · split
      · simp
      · rw [e]; simp
  · rcases hi.exec act with e | ⟨_, e, _⟩ <;> rw [e] <;> simp

/-- Nothing runs. -/
structure State.quiet (s : State) : Prop where
  fib : ∀ d, s.fib d = .none
  efib : s.efib = .none
  submitting : s.submitting = false
  tasks : s.tasks = []
  reactor : s.reactor = .idle
  checkers : s.checkers = []
  cleanup : s.cl = .none ∨ s.cl = .done

/-- A connection that was killed is cleaned up: when nothing runs, `OnCleanup` was called and the reference of the reactor is given up. -/
theorem C83_complete {keep ext l s} (h : Reach keep ext l s) (hq : s.quiet) (hk : s.killed = true) : s.cl = .done ∧ s.cleanups = 1 := by
  obtain ⟨hi, _⟩ := h.inv
  have hkl := hi.kl
  rw [hq.submitting, hq.tasks, hk] at hkl
  have hp : s.pending = true := by
    cases hx : s.pending
    · rw [hx] at hkl; simp at hkl
    · rfl
  have ht : s.taken = true := by
    cases hx : s.taken
    · rcases hi.kp hp hx with ⟨d, g⟩ | g | g | g
      · have := hi.ev d
        simp only [State.busy, hq.fib d, hq.tasks, Fib.on] at this
        simp at this
        omega
      · have := hi.er
        rw [hq.efib] at this
        simp only [EFib.on] at this
        omega
      · exact absurd hq.checkers g
      · rw [hq.reactor] at g; cases g
    · rfl
  have hs := hi.sb
  rw [ht, hq.checkers, hq.reactor] at hs
  have hc : s.cl = .done := by
    rcases hq.cleanup with e | e
    · rw [e] at hs; simp [RPc.submits, Cl.on] at hs
    · exact e
  refine ⟨hc, ?_⟩
  have := hi.cn
  rw [hc] at this
  exact this

end Verif.Conn.Cleanup
