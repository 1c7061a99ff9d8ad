import Verif.Reactor.Tasks

/-!
# The default reactor runs its tasks

The properties are stated on the log: what was submitted, what was called, and which queues were looked at.
-/

namespace Verif.Reactor.Tasks

/-! ## What the log says -/

/-- The tasks that have got a place in queue `p`, in this order. -/
def accs (p : Nat) (l : List Ev) : List Nat := l.filterMap fun e => match e with | .acc p' t => if p' = p then some t else none | _ => none

/-- The tasks of queue `p` that were called, in this order. -/
def runs (p : Nat) (l : List Ev) : List Nat := l.filterMap fun e => match e with | .run p' t => if p' = p then some t else none | _ => none

def accsI (l : List Ev) : List Nat := l.filterMap fun e => match e with | .accI t => some t | _ => none

def runsI (l : List Ev) : List Nat := l.filterMap fun e => match e with | .runI t => some t | _ => none

def Ev.call (c : List (Nat × Bool)) : Ev → List (Nat × Bool)
  | .begin _ => []
  | .run p _ => c ++ [(p, true)]
  | .empty p => c ++ [(p, false)]
  | _ => c

/-- The queues that the present call of `HandleTask` has looked at, and whether there was a task. -/
def call (l : List Ev) : List (Nat × Bool) := l.foldl Ev.call []

/-- Is the present call of `HandleTask` the last one? -/
def last (l : List Ev) : Bool := l.foldl (fun b e => match e with | .begin c => c | _ => b) false

/-- How many tasks were found. -/
def found (c : List (Nat × Bool)) : Nat := (c.filter (·.2)).length

/-- What may happen after `l`. -/
def Ok (cap : Nat) (l : List Ev) : Ev → Prop
  | .run p t => p = tbl ((call l).length % 10) ∧ (∃ r, accs p l = runs p l ++ t :: r) ∧ .pub t ∈ l ∧ (last l = false → found (call l) < 500)
  | .empty p => p = tbl ((call l).length % 10) ∧ ∀ t r, accs p l = runs p l ++ t :: r → .pub t ∉ l
  | .runI t => ∃ r, accsI l = runsI l ++ t :: r
  | .fin left => (left = true → last l = false ∧ found (call l) = 500) ∧ (left = false → ∃ a b, call l = a ++ b ∧ b.length = 10 ∧ ∀ x ∈ b, x.2 = false)
  | .full p => (accs p l).length = (runs p l).length + cap
  | .ret t => .pub t ∈ l ∨ .accI t ∈ l
  | _ => True

def Fits (cap : Nat) (log : List Ev) : Prop := ∀ l1 e l2, log = l1 ++ e :: l2 → Ok cap l1 e

theorem Fits.one {cap : Nat} {l : List Ev} {e : Ev} (h : Fits cap l) (he : Ok cap l e) : Fits cap (l ++ [e]) := by
  intro l1 x l2 hl
  rcases List.append_eq_append_iff.1 hl with ⟨a, h1, h2⟩ | ⟨a, h1, h2⟩
  · cases a with
    | nil =>
      simp at h2
      obtain ⟨rfl, rfl⟩ := h2
      simp at h1; subst h1; exact he
    | cons y a =>
      simp at h2
  · cases a with
    | nil =>
      simp at h2
      obtain ⟨rfl, rfl⟩ := h2
      simp at h1; subst h1; exact he
    | cons y a =>
      obtain ⟨rfl, h2⟩ : x = y ∧ l2 = a ++ [e] := by simpa using h2
      exact h l1 x a h1

@[simp] theorem accs_append (p : Nat) (l m : List Ev) : accs p (l ++ m) = accs p l ++ accs p m := by simp [accs]
@[simp] theorem runs_append (p : Nat) (l m : List Ev) : runs p (l ++ m) = runs p l ++ runs p m := by simp [runs]
@[simp] theorem accsI_append (l m : List Ev) : accsI (l ++ m) = accsI l ++ accsI m := by simp [accsI]
@[simp] theorem runsI_append (l m : List Ev) : runsI (l ++ m) = runsI l ++ runsI m := by simp [runsI]
theorem call_one (l : List Ev) (e : Ev) : call (l ++ [e]) = e.call (call l) := by simp [call]
theorem call_two (l : List Ev) (e f : Ev) : call (l ++ [e, f]) = f.call (e.call (call l)) := by simp [call]

/-! ## The data -/

def Pc.loc : Pc → List Nat
  | .inner _ l => l
  | _ => []

structure Inv (cap : Nat) (s : S) : Prop where
  size : s.cap = cap
  fifo : ∀ p, accs p s.log = runs p s.log ++ s.q p
  room : ∀ p, (s.q p).length ≤ cap
  fifoI : accsI s.log = runsI s.log ++ (s.pc.loc ++ s.inner)
  new : ∀ t, s.next ≤ t → s.stage t = .none ∧ .pub t ∉ s.log
  mem : ∀ p t, t ∈ s.q p → t < s.next
  pub : ∀ p t, t ∈ s.q p → (s.stage t = .claimed ∧ .pub t ∉ s.log) ∨ (s.stage t ≠ .claimed ∧ .pub t ∈ s.log)
  memI : ∀ t, t ∈ s.inner → t < s.next
  pubs : ∀ t, .pub t ∈ s.log → s.stage t ≠ .claimed
  put : ∀ t, s.stage t ≠ .claimed → s.stage t ≠ .none → .pub t ∈ s.log ∨ .accI t ∈ s.log
  ret : ∀ t, .ret t ∈ s.log → s.stage t = .done
  fits : Fits cap s.log
  polls : (call s.log).map (·.1) = (List.range (call s.log).length).map fun k => tbl (k % 10)
  inn : ∀ c l, s.pc = .inner c l → last s.log = c ∧ call s.log = []
  poll : ∀ c k idle count, s.pc = .poll c k idle count → last s.log = c ∧ k = (call s.log).length % 10 ∧ (c = false → count = found (call s.log) ∧ count < 500) ∧ idle < 10 ∧
    ∃ a b, call s.log = a ++ b ∧ b.length = idle ∧ ∀ x ∈ b, x.2 = false

theorem Inv.init (cap : Nat) : Inv cap (.init cap) where
  size := rfl
  fifo := by intro p; rfl
  room := by intro p; exact Nat.zero_le _
  fifoI := rfl
  new := by intro t _; exact ⟨rfl, by simp [S.init]⟩
  mem := by intro p t h; cases h
  pub := by intro p t h; cases h
  memI := by intro t h; cases h
  pubs := by intro t h; cases h
  put := by intro t _ h; exact absurd rfl h
  ret := by intro t h; cases h
  fits := by intro l1 e l2 h; simp [S.init] at h
  polls := rfl
  inn := by intro c l h; cases h
  poll := by intro c k i n h; cases h

theorem Inv.miss {cap : Nat} {s : S} (h : Inv cap s) {c : Bool} {k idle count : Nat} (hp : s.pc = .poll c k idle count)
    (hm : ∀ t l, s.q (tbl k) = t :: l → s.stage t = .claimed) : Inv cap (s.miss c k idle count) := by
  obtain ⟨hl, hk, hc, hi, a, b, hab, hb, hall⟩ := h.poll _ _ _ _ hp
  have hok : Ok cap s.log (.empty (tbl k)) := by
    refine ⟨by rw [hk], ?_⟩
    intro t r hr
    have : s.q (tbl k) = t :: r := by
      have := h.fifo (tbl k)
      rw [this] at hr
      exact List.append_cancel_left hr
    rcases h.pub (tbl k) t (by rw [this]; exact List.mem_cons_self ..) with h1 | h1
    · exact h1.2
    · exact absurd (hm _ _ this) h1.1
  have hf := h.fits.one hok
  have hloc : s.pc.loc = [] := by rw [hp]; rfl
  have hcall : call (s.log ++ [.empty (tbl k)]) = call s.log ++ [(tbl k, false)] := call_one _ _
  have hall' : ∀ x ∈ b ++ [(tbl k, false)], x.2 = false := by
    intro x hx
    rcases List.mem_append.1 hx with hx | hx
    · exact hall x hx
    · simp at hx; rw [hx]
  have hpolls : (call (s.log ++ [.empty (tbl k)])).map (·.1) = (List.range (call (s.log ++ [.empty (tbl k)])).length).map fun k => tbl (k % 10) := by
    rw [hcall, List.map_append, h.polls, List.length_append, List.length_singleton, List.range_succ, List.map_append]
    simp [hk]
  have hfI := h.fifoI
  rw [hloc] at hfI
  unfold S.miss
  split
  · rename_i h10
    have hlast : last (s.log ++ [.empty (tbl k)]) = c := by simpa [last] using hl
    have hok2 : Ok cap (s.log ++ [.empty (tbl k)]) (.fin false) := by
      refine ⟨by simp, fun _ => ⟨a, b ++ [(tbl k, false)], ?_, ?_, hall'⟩⟩
      · rw [hcall, hab, List.append_assoc]
      · rw [List.length_append, hb]; simp; omega
    have hf2 := hf.one hok2
    have e : ∀ c : Bool, ((if c then Pc.over else Pc.doze false) : Pc).loc = [] := by intro c; cases c <;> rfl
    refine ⟨h.size, ?_, h.room, ?_, ?_, h.mem, ?_, h.memI, ?_, ?_, ?_, ?_, ?_, ?_, ?_⟩
    · intro p; simpa [S.say, accs, runs] using h.fifo p
    · simp only [S.say, e]; simpa [accsI, runsI] using hfI
    · intro t ht; simpa [S.say] using h.new t ht
    · intro p t ht; simpa [S.say] using h.pub p t ht
    · intro t ht; exact h.pubs t (by simpa [S.say] using ht)
    · intro t; simpa [S.say] using h.put t
    · intro t; simpa [S.say] using h.ret t
    · simpa [S.say] using hf2
    · have : call (s.log ++ [.empty (tbl k), .fin false]) = call (s.log ++ [.empty (tbl k)]) := by rw [call_two, call_one]; rfl
      show (call (s.log ++ [.empty (tbl k), .fin false])).map (·.1) = (List.range (call (s.log ++ [.empty (tbl k), .fin false])).length).map _
      rw [this]; exact hpolls
    · intro c' l' hx; cases c <;> simp [S.say] at hx
    · intro c' k' i' n' hx; cases c <;> simp [S.say] at hx
  · rename_i h10
    refine ⟨h.size, ?_, h.room, ?_, ?_, h.mem, ?_, h.memI, ?_, ?_, ?_, hf, hpolls, ?_, ?_⟩
    · intro p; simpa [S.say, accs, runs] using h.fifo p
    · simp only [S.say, Pc.loc]; simpa [accsI, runsI] using hfI
    · intro t ht; simpa [S.say] using h.new t ht
    · intro p t ht; simpa [S.say] using h.pub p t ht
    · intro t ht; exact h.pubs t (by simpa [S.say] using ht)
    · intro t; simpa [S.say] using h.put t
    · intro t; simpa [S.say] using h.ret t
    · intro c' l' hx; cases hx
    · intro c' k' i' n' hx
      cases hx
      refine ⟨by simpa [S.say, last] using hl, ?_, ?_, by omega, ?_⟩
      · show (k + 1) % 10 = (call (s.log ++ [.empty (tbl k)])).length % 10
        rw [hcall, List.length_append, List.length_singleton, hk]; omega
      · intro hcf
        show count = found (call (s.log ++ [.empty (tbl k)])) ∧ _
        rw [hcall]
        simpa [found] using hc hcf
      · show ∃ a b, call (s.log ++ [.empty (tbl k)]) = a ++ b ∧ _
        refine ⟨a, b ++ [(tbl k, false)], by rw [hcall, hab, List.append_assoc], by simp [hb], hall'⟩

theorem Inv.hit {cap : Nat} {s : S} (h : Inv cap s) {c : Bool} {k idle count t : Nat} {l : List Nat} (hp : s.pc = .poll c k idle count)
    (hq : s.q (tbl k) = t :: l) (hs : s.stage t ≠ .claimed) : Inv cap (s.hit c k count t l) := by
  obtain ⟨hl, hk, hc, hi, a, b, hab, hb, hall⟩ := h.poll _ _ _ _ hp
  have hmem : t ∈ s.q (tbl k) := by rw [hq]; exact List.mem_cons_self ..
  have hok : Ok cap s.log (.run (tbl k) t) := by
    refine ⟨by rw [hk], ⟨l, by rw [h.fifo, hq]⟩, ?_, ?_⟩
    · rcases h.pub (tbl k) t hmem with h1 | h1
      · exact absurd h1.1 hs
      · exact h1.2
    · intro e
      rw [hl] at e
      have := hc e; omega
  have hf := h.fits.one hok
  have hloc : s.pc.loc = [] := by rw [hp]; rfl
  have hcall : call (s.log ++ [.run (tbl k) t]) = call s.log ++ [(tbl k, true)] := call_one _ _
  have hpolls : (call (s.log ++ [.run (tbl k) t])).map (·.1) = (List.range (call (s.log ++ [.run (tbl k) t])).length).map fun k => tbl (k % 10) := by
    rw [hcall, List.map_append, h.polls, List.length_append, List.length_singleton, List.range_succ, List.map_append]
    simp [hk]
  have hfI := h.fifoI
  rw [hloc] at hfI
  have hfound : found (call (s.log ++ [.run (tbl k) t])) = found (call s.log) + 1 := by rw [hcall]; simp [found]
  have hfifo : ∀ p, accs p s.log = runs p s.log ++ runs p [.run (tbl k) t] ++ upd s.q (tbl k) l p := by
    intro p
    by_cases e : tbl k = p
    · subst e
      rw [h.fifo, hq, upd_same]; simp [runs]
    · rw [h.fifo, upd_ne _ _ (Ne.symm e)]; simp [runs, e]
  have hsub : ∀ p x, x ∈ upd s.q (tbl k) l p → x ∈ s.q p := by
    intro p x hx
    by_cases e : p = tbl k
    · subst e
      rw [upd_same] at hx; rw [hq]; exact List.mem_cons_of_mem _ hx
    · rwa [upd_ne _ _ e] at hx
  have hroom : ∀ p, (upd s.q (tbl k) l p).length ≤ cap := by
    intro p
    by_cases e : p = tbl k
    · subst e
      have := h.room (tbl k); rw [hq] at this
      rw [upd_same]; simp at this; omega
    · rw [upd_ne _ _ e]; exact h.room p
  unfold S.hit
  split
  · rename_i h500
    have hlast : last (s.log ++ [.run (tbl k) t]) = false := by simpa [last, h500.1] using hl
    have hok2 : Ok cap (s.log ++ [.run (tbl k) t]) (.fin true) := by
      refine ⟨fun _ => ⟨hlast, ?_⟩, by simp⟩
      have := hc h500.1
      rw [hfound]; omega
    have hf2 := hf.one hok2
    refine ⟨h.size, ?_, hroom, ?_, ?_, ?_, ?_, h.memI, ?_, ?_, ?_, ?_, ?_, ?_, ?_⟩
    · intro p
      have e : runs p [.run (tbl k) t, .fin true] = runs p [.run (tbl k) t] := by simp only [runs, List.filterMap_cons, List.filterMap_nil]
      simp only [S.say, accs_append, runs_append, e]
      rw [← hfifo p]
      simp [accs]
    · simp only [S.say, Pc.loc]; simpa [accsI, runsI] using hfI
    · intro t ht; simpa [S.say] using h.new t ht
    · intro p x hx; exact h.mem p x (hsub p x hx)
    · intro p x hx; simpa [S.say] using h.pub p x (hsub p x hx)
    · intro t ht; exact h.pubs t (by simpa [S.say] using ht)
    · intro t; simpa [S.say] using h.put t
    · intro t; simpa [S.say] using h.ret t
    · simpa [S.say] using hf2
    · have : call (s.log ++ [.run (tbl k) t, .fin true]) = call (s.log ++ [.run (tbl k) t]) := by rw [call_two, call_one]; rfl
      show (call (s.log ++ [.run (tbl k) t, .fin true])).map (·.1) = (List.range (call (s.log ++ [.run (tbl k) t, .fin true])).length).map _
      rw [this]; exact hpolls
    · intro c' l' hx; cases hx
    · intro c' k' i' n' hx; cases hx
  · rename_i h500
    refine ⟨h.size, ?_, hroom, ?_, ?_, ?_, ?_, h.memI, ?_, ?_, ?_, hf, hpolls, ?_, ?_⟩
    · intro p
      have := hfifo p
      simpa [S.say, accs, runs] using this
    · simp only [S.say, Pc.loc]; simpa [accsI, runsI] using hfI
    · intro t ht; simpa [S.say] using h.new t ht
    · intro p x hx; exact h.mem p x (hsub p x hx)
    · intro p x hx; simpa [S.say] using h.pub p x (hsub p x hx)
    · intro t ht; exact h.pubs t (by simpa [S.say] using ht)
    · intro t; simpa [S.say] using h.put t
    · intro t; simpa [S.say] using h.ret t
    · intro c' l' hx; cases hx
    · intro c' k' i' n' hx
      cases hx
      refine ⟨by simpa [S.say, last] using hl, ?_, ?_, by omega, ?_⟩
      · show (k + 1) % 10 = (call (s.log ++ [.run (tbl k) t])).length % 10
        rw [hcall, List.length_append, List.length_singleton, hk]; omega
      · intro hcf
        show _ = found (call (s.log ++ [.run (tbl k) t])) ∧ _
        have := hc hcf
        rw [hfound, if_neg (by rw [hcf]; simp)]
        refine ⟨by omega, ?_⟩
        have h5 : ¬ 500 ≤ count + 1 := fun e => h500 ⟨hcf, e⟩
        omega
      · exact ⟨call (s.log ++ [.run (tbl k) t]), [], by simp [S.say], rfl, by simp⟩

/-- Steps that leave the log, the data and the stages alone. -/
theorem Inv.pc {cap : Nat} {s s' : S} (h : Inv cap s) (hq : s'.q = s.q) (hi : s'.inner = s.inner) (hst : s'.stage = s.stage) (hn : s'.next = s.next) (hc : s'.cap = s.cap)
    (hl : s'.log = s.log) (hloc : s'.pc.loc = s.pc.loc) (h1 : ∀ c l, s'.pc = .inner c l → s.pc = .inner c l)
    (h2 : ∀ c k i n, s'.pc = .poll c k i n → s.pc = .poll c k i n ∨ ((∃ l, s.pc = .inner c l) ∧ k = 0 ∧ i = 0 ∧ n = 0)) : Inv cap s' := by
  obtain ⟨a1, a2, a3, a4, a5, a6, a7, a8, a9, a10, a11, a12, a13, a14, a15⟩ := h
  refine ⟨by rw [hc, a1], by rw [hl, hq]; exact a2, by rw [hq]; exact a3, by rw [hl, hloc, hi]; exact a4, by rw [hn, hst, hl]; exact a5, by rw [hq, hn]; exact a6,
    by rw [hq, hst, hl]; exact a7, by rw [hi, hn]; exact a8, by rw [hl, hst]; exact a9, by rw [hl, hst]; exact a10, by rw [hl, hst]; exact a11, by rw [hl]; exact a12,
    by rw [hl]; exact a13, ?_, ?_⟩
  · intro c l hx; rw [hl]; exact a14 c l (h1 c l hx)
  · intro c k i n hx
    rw [hl]
    rcases h2 c k i n hx with hy | ⟨⟨l, hy⟩, rfl, rfl, rfl⟩
    · exact a15 c k i n hy
    · obtain ⟨b1, b2⟩ := a14 c l hy
      rw [b2]
      exact ⟨b1, rfl, fun _ => ⟨rfl, by omega⟩, by omega, [], [], rfl, rfl, by simp⟩

theorem Inv.react {cap : Nat} {s : S} (h : Inv cap s) : Inv cap s.react := by
  unfold S.react
  split
  · rename_i hp; exact h.pc rfl rfl rfl rfl rfl rfl (by rw [hp]; rfl) (by intro c l e; cases e) (by intro c k i n e; cases e)
  · rename_i c hp
    have hfI := h.fifoI
    rw [hp] at hfI
    have hcall : call (s.log ++ [.begin c]) = [] := call_one _ _
    refine ⟨h.size, ?_, h.room, ?_, ?_, h.mem, ?_, (by intro t ht; cases ht), ?_, ?_, ?_, h.fits.one trivial, ?_, ?_, ?_⟩
    · intro p; simpa [S.say, accs, runs] using h.fifo p
    · simp only [S.say, Pc.loc]; simpa [accsI, runsI, Pc.loc] using hfI
    · intro t ht; simpa [S.say] using h.new t ht
    · intro p x hx; simpa [S.say] using h.pub p x hx
    · intro t ht; exact h.pubs t (by simpa [S.say] using ht)
    · intro t; simpa [S.say] using h.put t
    · intro t; simpa [S.say] using h.ret t
    · show (call (s.log ++ [.begin c])).map _ = (List.range (call (s.log ++ [.begin c])).length).map _
      rw [hcall]; rfl
    · intro c' l' hx
      cases hx
      exact ⟨by simp [S.say, last], hcall⟩
    · intro c' k' i' n' hx; cases hx
  · rename_i c t l hp
    have hfI := h.fifoI
    rw [hp] at hfI
    obtain ⟨b1, b2⟩ := h.inn _ _ hp
    have hcall : call (s.log ++ [.runI t]) = [] := by rw [call_one, b2]; rfl
    refine ⟨h.size, ?_, h.room, ?_, ?_, h.mem, ?_, h.memI, ?_, ?_, ?_, h.fits.one ⟨l ++ s.inner, by rw [hfI]; rfl⟩, ?_, ?_, ?_⟩
    · intro p; simpa [S.say, accs, runs] using h.fifo p
    · simp only [S.say, Pc.loc]; simpa [accsI, runsI, Pc.loc] using hfI
    · intro t ht; simpa [S.say] using h.new t ht
    · intro p x hx; simpa [S.say] using h.pub p x hx
    · intro t ht; exact h.pubs t (by simpa [S.say] using ht)
    · intro t; simpa [S.say] using h.put t
    · intro t; simpa [S.say] using h.ret t
    · show (call (s.log ++ [.runI t])).map _ = (List.range (call (s.log ++ [.runI t])).length).map _
      rw [hcall]; rfl
    · intro c' l' hx
      cases hx
      exact ⟨by simpa [S.say, last] using b1, hcall⟩
    · intro c' k' i' n' hx; cases hx
  · rename_i c hp
    refine h.pc rfl rfl rfl rfl rfl rfl (by rw [hp]; rfl) (by intro c l e; cases e) ?_
    intro c' k i n e
    cases e
    exact .inr ⟨⟨_, hp⟩, rfl, rfl, rfl⟩
  · rename_i c k idle count hp
    unfold S.poll
    split
    · rename_i t l hq
      split
      · rename_i hs
        refine h.miss hp ?_
        intro t' l' e
        rw [hq] at e; cases e; exact hs
      · rename_i hs
        exact h.hit hp hq hs
    · rename_i hq
      refine h.miss hp ?_
      intro t' l' e
      rw [hq] at e; cases e
  all_goals first
    | exact h
    | (rename_i hp
       refine h.pc ?_ ?_ ?_ ?_ ?_ ?_ ?_ ?_ ?_ <;>
         first
           | rfl
           | (repeat' split) <;> first
              | rfl
              | (rw [hp]; rfl)
              | (intro c k i n e; cases e)
              | (intro c l e; cases e))

theorem Inv.done {cap : Nat} {s : S} (h : Inv cap s) (t : Nat) (b1 b2 : Bool) (hc : s.stage t ≠ .claimed) (hn : s.stage t ≠ .none) :
    Inv cap ({ s with stage := upd s.stage t .done, cnt := b1, rdy := b2 }.say [.ret t]) := by
  have hcall : call (s.log ++ [.ret t]) = call s.log := call_one _ _
  have hlt : t < s.next := by
    by_cases hx : t < s.next
    · exact hx
    · exact absurd (h.new t (by omega)).1 hn
  refine ⟨h.size, ?_, h.room, ?_, ?_, h.mem, ?_, h.memI, ?_, ?_, ?_, h.fits.one (h.put t hc hn), ?_, ?_, ?_⟩
  · intro p; simpa [S.say, accs, runs] using h.fifo p
  · simpa [S.say, accsI, runsI] using h.fifoI
  · intro x hx
    have hx : s.next ≤ x := hx
    have hb := h.new x hx
    have hne : x ≠ t := by omega
    simp only [S.say]
    rw [upd_ne _ _ hne]
    exact ⟨hb.1, by simpa [hne] using hb.2⟩
  · intro p x hx
    simp only [S.say]
    have := h.pub p x hx
    by_cases e : x = t
    · subst e
      rw [upd_same]
      simpa [hc] using this
    · rw [upd_ne _ _ e]
      simpa [e] using this
  · intro x hx
    simp only [S.say] at hx ⊢
    rw [upd_apply]; split
    · simp
    · exact h.pubs x (by simpa using hx)
  · intro x h1 h2
    simp only [S.say] at h1 h2 ⊢
    by_cases e : x = t
    · subst e
      simpa using h.put x hc hn
    · rw [upd_ne _ _ e] at h1 h2
      simpa using h.put x h1 h2
  · intro x hx
    simp only [S.say] at hx ⊢
    by_cases e : x = t
    · subst e; rw [upd_same]
    · rw [upd_ne _ _ e]; exact h.ret x (by simpa [e] using hx)
  · show (call (s.log ++ [.ret t])).map _ = (List.range (call (s.log ++ [.ret t])).length).map _
    rw [hcall]; exact h.polls
  · intro c l hx
    have := h.inn c l hx
    exact ⟨by simpa [S.say, last] using this.1, by simpa [S.say, hcall] using this.2⟩
  · intro c k i n hx
    have := h.poll c k i n hx
    simp only [S.say, hcall]
    refine ⟨by simpa [last] using this.1, this.2⟩

theorem Inv.step {cap : Nat} {s s' : S} (h : Inv cap s) (hs : Step s s') : Inv cap s' := by
  cases hs with
  | acc p hp hlen =>
    have hcall : call (s.log ++ [.acc p s.next]) = call s.log := call_one _ _
    refine ⟨h.size, ?_, ?_, ?_, ?_, ?_, ?_, ?_, ?_, ?_, ?_, h.fits.one trivial, ?_, ?_, ?_⟩
    · intro p'
      have hb := h.fifo p'
      by_cases e : p = p'
      · subst e
        simp [S.say, upd_same, accs, runs] at hb ⊢
        rw [hb]; simp
      · simp [S.say, upd_ne _ _ (Ne.symm e), accs, runs, e] at hb ⊢
        rw [hb]
    · intro p'
      show (upd s.q p (s.q p ++ [s.next]) p').length ≤ cap
      have := h.room p'
      by_cases e : p' = p
      · subst e
        rw [upd_same, List.length_append, ← h.size]; simp; omega
      · rwa [upd_ne _ _ e]
    · simpa [S.say, accsI, runsI] using h.fifoI
    · intro t ht
      have ht : s.next + 1 ≤ t := ht
      have hb := h.new t (by omega)
      simp [S.say]
      rw [upd_ne _ _ (by omega)]
      exact hb
    · intro p' t ht
      show t < s.next + 1
      have ht : t ∈ upd s.q p (s.q p ++ [s.next]) p' := ht
      rw [upd_apply] at ht
      split at ht
      · rcases List.mem_append.1 ht with h1 | h1
        · have := h.mem _ _ h1; omega
        · simp at h1; omega
      · have := h.mem _ _ ht; omega
    · intro p' t ht
      have ht : t ∈ upd s.q p (s.q p ++ [s.next]) p' := ht
      have hold : ∀ p'', t ∈ s.q p'' → upd s.stage s.next .claimed t = s.stage t := by
        intro p'' h1
        have := h.mem _ _ h1
        rw [upd_ne _ _ (by omega)]
      rw [upd_apply] at ht
      simp only [S.say, List.mem_append]
      have hnot : Ev.pub t ∉ [Ev.acc p s.next] := by simp
      split at ht
      · rcases List.mem_append.1 ht with h1 | h1
        · rw [hold _ h1]; simpa using h.pub _ _ h1
        · simp at h1; subst h1
          rw [upd_same]
          left
          simpa using (h.new s.next (Nat.le_refl _)).2
      · rw [hold _ ht]; simpa using h.pub _ _ ht
    · intro t ht
      have := h.memI t ht
      show t < s.next + 1
      omega
    · intro t ht
      have ht : .pub t ∈ s.log := by simpa [S.say] using ht
      show upd s.stage s.next .claimed t ≠ .claimed
      have hne : t ≠ s.next := by intro e; exact (h.new t (by omega)).2 ht
      rw [upd_ne _ _ hne]
      exact h.pubs t ht
    · intro t h1 h2
      have h1 : upd s.stage s.next .claimed t ≠ .claimed := h1
      have h2 : upd s.stage s.next .claimed t ≠ .none := h2
      have hne : t ≠ s.next := by intro e; rw [e, upd_same] at h1; exact h1 rfl
      rw [upd_ne _ _ hne] at h1 h2
      simpa [S.say] using h.put t h1 h2
    · intro t ht
      have ht : .ret t ∈ s.log := by simpa [S.say] using ht
      show upd s.stage s.next .claimed t = .done
      have hd := h.ret t ht
      have hne : t ≠ s.next := by intro e; rw [(h.new t (by omega)).1] at hd; cases hd
      rw [upd_ne _ _ hne]; exact hd
    · show (call (s.log ++ [.acc p s.next])).map _ = (List.range (call (s.log ++ [.acc p s.next])).length).map _
      rw [hcall]; exact h.polls
    · intro c l hx
      have := h.inn c l hx
      exact ⟨by simpa [S.say, last] using this.1, by simpa [S.say, hcall] using this.2⟩
    · intro c k i n hx
      have := h.poll c k i n hx
      simp only [S.say, hcall]
      refine ⟨by simpa [last] using this.1, this.2⟩
  | full p hp hlen =>
    have hcall : call (s.log ++ [.full p]) = call s.log := call_one _ _
    refine ⟨h.size, ?_, h.room, ?_, ?_, h.mem, ?_, h.memI, ?_, ?_, ?_, h.fits.one ?_, ?_, ?_, ?_⟩
    · intro p; simpa [S.say, accs, runs] using h.fifo p
    · simpa [S.say, accsI, runsI] using h.fifoI
    · intro t ht; simpa [S.say] using h.new t ht
    · intro p t ht; simpa [S.say] using h.pub p t ht
    · intro t ht; exact h.pubs t (by simpa [S.say] using ht)
    · intro t; simpa [S.say] using h.put t
    · intro t; simpa [S.say] using h.ret t
    · show (accs p s.log).length = (runs p s.log).length + cap
      have := h.room p
      have hz := h.size
      rw [h.fifo p, List.length_append]; omega
    · show (call (s.log ++ [.full p])).map _ = (List.range (call (s.log ++ [.full p])).length).map _
      rw [hcall]; exact h.polls
    · intro c l hx
      have := h.inn c l hx
      exact ⟨by simpa [S.say, last] using this.1, by simpa [S.say, hcall] using this.2⟩
    · intro c k i n hx
      have := h.poll c k i n hx
      simp only [S.say, hcall]
      refine ⟨by simpa [last] using this.1, this.2⟩
  | pub t hst =>
    have hcall : call (s.log ++ [.pub t]) = call s.log := call_one _ _
    have hlt : t < s.next := by
      by_cases hx : t < s.next
      · exact hx
      · rw [(h.new t (by omega)).1] at hst; cases hst
    refine ⟨h.size, ?_, h.room, ?_, ?_, h.mem, ?_, h.memI, ?_, ?_, ?_, h.fits.one trivial, ?_, ?_, ?_⟩
    · intro p; simpa [S.say, accs, runs] using h.fifo p
    · simpa [S.say, accsI, runsI] using h.fifoI
    · intro x hx
      have hx : s.next ≤ x := hx
      have hb := h.new x hx
      have hne : x ≠ t := by omega
      simp only [S.say]
      rw [upd_ne _ _ hne]
      exact ⟨hb.1, by simpa [hne] using hb.2⟩
    · intro p x hx
      simp only [S.say]
      by_cases e : x = t
      · subst e
        rw [upd_same]
        right; simp
      · rw [upd_ne _ _ e]
        simpa [e] using h.pub p x hx
    · intro x hx
      simp only [S.say] at hx ⊢
      by_cases e : x = t
      · subst e; rw [upd_same]; simp
      · rw [upd_ne _ _ e]; exact h.pubs x (by simpa [e] using hx)
    · intro x h1 h2
      simp only [S.say] at h1 h2 ⊢
      by_cases e : x = t
      · subst e; left; simp
      · rw [upd_ne _ _ e] at h1 h2
        simpa [e] using h.put x h1 h2
    · intro x hx
      simp only [S.say] at hx ⊢
      have hd := h.ret x (by simpa using hx)
      by_cases e : x = t
      · subst e; rw [hst] at hd; cases hd
      · rw [upd_ne _ _ e]; exact hd
    · show (call (s.log ++ [.pub t])).map _ = (List.range (call (s.log ++ [.pub t])).length).map _
      rw [hcall]; exact h.polls
    · intro c l hx
      have := h.inn c l hx
      exact ⟨by simpa [S.say, last] using this.1, by simpa [S.say, hcall] using this.2⟩
    · intro c k i n hx
      have := h.poll c k i n hx
      simp only [S.say, hcall]
      refine ⟨by simpa [last] using this.1, this.2⟩
  | accI =>
    have hcall : call (s.log ++ [.accI s.next]) = call s.log := call_one _ _
    have hold : ∀ p t, t ∈ s.q p → upd s.stage s.next .pushed t = s.stage t := by
      intro p t h1
      have := h.mem _ _ h1
      rw [upd_ne _ _ (by omega)]
    refine ⟨h.size, ?_, h.room, ?_, ?_, ?_, ?_, ?_, ?_, ?_, ?_, h.fits.one trivial, ?_, ?_, ?_⟩
    · intro p; simpa [S.say, accs, runs] using h.fifo p
    · have := h.fifoI
      simp [S.say, accsI, runsI] at this ⊢
      rw [this]; simp
    · intro t ht
      have ht : s.next + 1 ≤ t := ht
      have hb := h.new t (by omega)
      simp [S.say]
      rw [upd_ne _ _ (by omega)]
      exact hb
    · intro p t ht
      have := h.mem p t ht
      show t < s.next + 1
      omega
    · intro p t ht
      simp only [S.say, hold p t ht]
      simpa using h.pub p t ht
    · intro t ht
      show t < s.next + 1
      rcases List.mem_append.1 ht with h1 | h1
      · have := h.memI t h1; omega
      · simp at h1; omega
    · intro t ht
      have ht : .pub t ∈ s.log := by simpa [S.say] using ht
      show upd s.stage s.next .pushed t ≠ .claimed
      rw [upd_apply]
      split
      · simp
      · exact h.pubs t ht
    · intro t h1 h2
      simp only [S.say] at h1 h2 ⊢
      by_cases e : t = s.next
      · right; simp [e]
      · rw [upd_ne _ _ e] at h1 h2
        rcases h.put t h1 h2 with h3 | h3
        · left; simp [h3]
        · right; simp [h3]
    · intro t ht
      have ht : .ret t ∈ s.log := by simpa [S.say] using ht
      show upd s.stage s.next .pushed t = .done
      have hd := h.ret t ht
      have hne : t ≠ s.next := by intro e; rw [(h.new t (by omega)).1] at hd; cases hd
      rw [upd_ne _ _ hne]; exact hd
    · show (call (s.log ++ [.accI s.next])).map _ = (List.range (call (s.log ++ [.accI s.next])).length).map _
      rw [hcall]; exact h.polls
    · intro c l hx
      have := h.inn c l hx
      exact ⟨by simpa [S.say, last] using this.1, by simpa [S.say, hcall] using this.2⟩
    · intro c k i n hx
      have := h.poll c k i n hx
      simp only [S.say, hcall]
      refine ⟨by simpa [last] using this.1, this.2⟩
  | ret t hst hp => exact h.done (s := s) t s.cnt s.rdy (by rw [hst]; simp) (by rw [hst]; simp)
  | see t hst hp =>
    have hlt : t < s.next := by
      by_cases hx : t < s.next
      · exact hx
      · rw [(h.new t (by omega)).1] at hst; cases hst
    refine ⟨h.size, h.fifo, h.room, h.fifoI, ?_, h.mem, ?_, h.memI, ?_, ?_, ?_, h.fits, h.polls, h.inn, h.poll⟩
    · intro x hx
      have hx : s.next ≤ x := hx
      show upd s.stage t .waking x = .none ∧ _
      rw [upd_ne _ _ (by omega)]; exact h.new x hx
    · intro p x hx
      show (upd s.stage t .waking x = .claimed ∧ _) ∨ (upd s.stage t .waking x ≠ .claimed ∧ _)
      have := h.pub p x hx
      by_cases e : x = t
      · subst e
        rw [upd_same]; rw [hst] at this
        simpa using this
      · rwa [upd_ne _ _ e]
    · intro x hx
      show upd s.stage t .waking x ≠ .claimed
      rw [upd_apply]; split
      · simp
      · exact h.pubs x hx
    · intro x h1 h2
      have h1 : upd s.stage t .waking x ≠ .claimed := h1
      have h2 : upd s.stage t .waking x ≠ .none := h2
      by_cases e : x = t
      · subst e; exact h.put x (by rw [hst]; simp) (by rw [hst]; simp)
      · rw [upd_ne _ _ e] at h1 h2; exact h.put x h1 h2
    · intro x hx
      show upd s.stage t .waking x = .done
      have hd := h.ret x hx
      by_cases e : x = t
      · subst e; rw [hst] at hd; cases hd
      · rw [upd_ne _ _ e]; exact hd
  | wake t hst => exact h.done (s := s) t true true (by rw [hst]; simp) (by rw [hst]; simp)
  | stop => exact h.pc rfl rfl rfl rfl rfl rfl rfl (fun _ _ e => e) (fun _ _ _ _ e => .inl e)
  | react => exact h.react
  | report b hp hc => exact h.pc rfl rfl rfl rfl rfl rfl (by rw [hp]; rfl) (by intro c l e; cases e) (by intro c k i n e; cases e)
  | other b hp hc => exact h.pc rfl rfl rfl rfl rfl rfl (by rw [hp]; rfl) (by intro c l e; cases e) (by intro c k i n e; cases e)

/-! ## Sleeping and waking up -/

/-- Is queue `p` seen empty, on the way to sleep? -/
def Pc.seen (p : Nat) : Pc → Prop
  | .check2 i => p < i
  | .wait true => p < 4
  | _ => False

/-- Is the list of inner tasks seen empty, on the way to sleep? -/
def Pc.seenI : Pc → Prop
  | .check2 _ => True
  | .wait true => True
  | _ => False

/-- On the way to sleep. -/
def Pc.dozing : Pc → Prop
  | .check1 => True
  | .check2 _ => True
  | .wait _ => True
  | _ => False

def Pc.told : Pc → Prop
  | .woke true => True
  | .disp true => True
  | _ => False

structure Naps (s : S) : Prop where
  off : s.pc.dozing → s.polling = false
  q : ∀ p, s.pc.seen p → ∀ t, t ∈ s.q p → s.stage t = .done → s.cnt = true ∧ s.rdy = true
  i : s.pc.seenI → ∀ t, t ∈ s.inner → s.stage t = .done → s.cnt = true ∧ s.rdy = true
  edge : s.cnt = true → s.rdy = true ∨ s.pc.told
  held : s.pc.told → s.cnt = true
  works : s.pc ≠ .failed
  fin : s.pc = .over → ∃ l1 l2, s.log = l1 ++ .fin false :: l2 ∧ last l1 = true

theorem Naps.init (cap : Nat) : Naps (.init cap) :=
  ⟨(by intro h; cases h), (by intro p h; cases h), (by intro h; cases h), (by intro h; cases h), (by intro h; cases h), by simp [S.init], (by intro h; cases h)⟩

theorem Pc.seen.doze {p : Nat} {c : Pc} (h : c.seen p) : c.dozing := by
  cases c <;> first | trivial | cases h

theorem Pc.seenI.doze {c : Pc} (h : c.seenI) : c.dozing := by
  cases c <;> first | trivial | cases h

theorem Naps.react {cap : Nat} {s : S} (hi : Inv cap s) (h : Naps s) : Naps s.react := by
  have hed : ¬ s.pc.told → s.cnt = true → s.rdy = true := by
    intro hn hc
    rcases h.edge hc with h1 | h1
    · exact h1
    · exact absurd h1 hn
  unfold S.react
  split
  · rename_i hp
    exact ⟨(by intro h; cases h), (by intro p h; cases h), (by intro h; cases h), fun hc => .inl (hed (by rw [hp]; exact id) hc), (by intro h; cases h), by simp, (by intro h; cases h)⟩
  · rename_i c hp
    exact ⟨(by intro h; cases h), (by intro p h; cases h), (by intro h; cases h), fun hc => .inl (hed (by rw [hp]; exact id) hc), (by intro h; cases h), by simp [S.say], (by intro h; cases h)⟩
  · rename_i c t l hp
    exact ⟨(by intro h; cases h), (by intro p h; cases h), (by intro h; cases h), fun hc => .inl (hed (by rw [hp]; exact id) hc), (by intro h; cases h), by simp [S.say], (by intro h; cases h)⟩
  · rename_i c hp
    exact ⟨(by intro h; cases h), (by intro p h; cases h), (by intro h; cases h), fun hc => .inl (hed (by rw [hp]; exact id) hc), (by intro h; cases h), by simp, (by intro h; cases h)⟩
  · rename_i c k idle count hp
    have hl := (hi.poll _ _ _ _ hp).1
    have hm : Naps (s.miss c k idle count) := by
      unfold S.miss
      split
      · cases c with
        | true =>
          refine ⟨(by intro h; cases h), (by intro p h; cases h), (by intro h; cases h), fun hc => .inl (hed (by rw [hp]; exact id) hc), (by intro h; cases h), by simp [S.say], ?_⟩
          intro _
          exact ⟨s.log ++ [.empty (tbl k)], [], by simp [S.say], by simpa [last] using hl⟩
        | false =>
          exact ⟨(by intro h; cases h), (by intro p h; cases h), (by intro h; cases h), fun hc => .inl (hed (by rw [hp]; exact id) hc), (by intro h; cases h), by simp [S.say], (by intro h; cases h)⟩
      · exact ⟨(by intro h; cases h), (by intro p h; cases h), (by intro h; cases h), fun hc => .inl (hed (by rw [hp]; exact id) hc), (by intro h; cases h), by simp [S.say], (by intro h; cases h)⟩
    unfold S.poll
    split
    · split
      · exact hm
      · unfold S.hit
        split
        · exact ⟨(by intro h; cases h), (by intro p h; cases h), (by intro h; cases h), fun hc => .inl (hed (by rw [hp]; exact id) hc), (by intro h; cases h), by simp [S.say], (by intro h; cases h)⟩
        · exact ⟨(by intro h; cases h), (by intro p h; cases h), (by intro h; cases h), fun hc => .inl (hed (by rw [hp]; exact id) hc), (by intro h; cases h), by simp [S.say], (by intro h; cases h)⟩
    · exact hm
  · rename_i left hp
    cases left with
    | true => exact ⟨fun _ => rfl, (by intro p h; cases h), (by intro h; cases h), fun hc => .inl (hed (by rw [hp]; exact id) hc), (by intro h; cases h), by simp, (by intro h; cases h)⟩
    | false => exact ⟨fun _ => rfl, (by intro p h; cases h), (by intro h; cases h), fun hc => .inl (hed (by rw [hp]; exact id) hc), (by intro h; cases h), by simp, (by intro h; cases h)⟩
  · rename_i hp
    have hoff := h.off (by rw [hp]; trivial)
    by_cases e : s.inner = []
    · rw [if_neg (by simpa using e)]
      refine ⟨fun _ => hoff, (by intro p h; cases h), ?_, fun hc => .inl (hed (by rw [hp]; exact id) hc), (by intro h; cases h), by simp, (by intro h; cases h)⟩
      intro _ t ht
      have ht : t ∈ s.inner := ht
      rw [e] at ht; cases ht
    · rw [if_pos e]
      exact ⟨fun _ => hoff, (by intro p h; cases h), (by intro h; cases h), fun hc => .inl (hed (by rw [hp]; exact id) hc), (by intro h; cases h), by simp, (by intro h; cases h)⟩
  · rename_i i hp
    have hoff := h.off (by rw [hp]; trivial)
    by_cases e4 : i = 4
    · rw [if_pos e4]
      refine ⟨fun _ => hoff, ?_, ?_, fun hc => .inl (hed (by rw [hp]; exact id) hc), (by intro h; cases h), by simp, (by intro h; cases h)⟩
      · intro p hp4
        exact h.q p (by rw [hp]; show p < i; rw [e4]; exact hp4)
      · intro _
        exact h.i (by rw [hp]; trivial)
    · rw [if_neg e4]
      by_cases e : s.q i = []
      · rw [if_neg (by simpa using e)]
        refine ⟨fun _ => hoff, ?_, ?_, fun hc => .inl (hed (by rw [hp]; exact id) hc), (by intro h; cases h), by simp, (by intro h; cases h)⟩
        · intro p hpi t ht
          have hpi : p < i + 1 := hpi
          by_cases epi : p = i
          · subst epi
            have ht : t ∈ s.q p := ht
            rw [e] at ht; cases ht
          · exact h.q p (by rw [hp]; show p < i; omega) t ht
        · intro _
          exact h.i (by rw [hp]; trivial)
      · rw [if_pos e]
        exact ⟨fun _ => hoff, (by intro p h; cases h), (by intro h; cases h), fun hc => .inl (hed (by rw [hp]; exact id) hc), (by intro h; cases h), by simp, (by intro h; cases h)⟩
  · rename_i hp
    exact ⟨(by intro h; cases h), (by intro p h; cases h), (by intro h; cases h), fun hc => .inl (hed (by rw [hp]; exact id) hc), (by intro h; cases h), by simp, (by intro h; cases h)⟩
  · exact h
  · rename_i e hp
    refine ⟨(by intro h; cases h), (by intro p h; cases h), (by intro h; cases h), ?_, ?_, by simp, (by intro h; cases h)⟩
    · intro hc
      cases e with
      | true => exact .inr trivial
      | false => exact .inl (hed (by rw [hp]; exact id) hc)
    · intro ht
      cases e with
      | true => exact h.held (by rw [hp]; trivial)
      | false => cases ht
  · rename_i e hp
    cases e with
    | true =>
      have hc := h.held (by rw [hp]; trivial)
      rw [if_pos rfl, if_pos hc]
      exact ⟨(by intro h; cases h), (by intro p h; cases h), (by intro h; cases h), (by intro h; cases h), (by intro h; cases h), by simp, (by intro h; cases h)⟩
    | false =>
      rw [if_neg (by simp)]
      exact ⟨(by intro h; cases h), (by intro p h; cases h), (by intro h; cases h), fun hc => .inl (hed (by rw [hp]; exact id) hc), (by intro h; cases h), by simp, (by intro h; cases h)⟩
  · exact h
  · exact h

theorem Naps.say {s : S} {e : Ev} (h : s.pc = .over → ∃ l1 l2, s.log = l1 ++ .fin false :: l2 ∧ last l1 = true) :
    s.pc = .over → ∃ l1 l2, s.log ++ [e] = l1 ++ .fin false :: l2 ∧ last l1 = true := by
  intro hp
  obtain ⟨l1, l2, h1, h2⟩ := h hp
  exact ⟨l1, l2 ++ [e], by rw [h1]; simp, h2⟩

theorem Naps.step {cap : Nat} {s s' : S} (hi : Inv cap s) (h : Naps s) (hs : Step s s') : Naps s' := by
  cases hs with
  | acc p hp hlen =>
    refine ⟨h.off, ?_, ?_, h.edge, h.held, h.works, Naps.say h.fin⟩
    · intro p' hp' t ht hd
      have hd : upd s.stage s.next .claimed t = .done := hd
      have ht : t ∈ upd s.q p (s.q p ++ [s.next]) p' := ht
      have hne : t ≠ s.next := by intro e; rw [e, upd_same] at hd; cases hd
      rw [upd_ne _ _ hne] at hd
      refine h.q p' hp' t ?_ hd
      rw [upd_apply] at ht
      split at ht
      · rename_i e
        subst e
        simpa [hne] using ht
      · exact ht
    · intro hI t ht hd
      have hd : upd s.stage s.next .claimed t = .done := hd
      have hne : t ≠ s.next := by intro e; rw [e, upd_same] at hd; cases hd
      rw [upd_ne _ _ hne] at hd
      exact h.i hI t ht hd
  | full p hp hlen => exact ⟨h.off, h.q, h.i, h.edge, h.held, h.works, Naps.say h.fin⟩
  | pub t hst =>
    refine ⟨h.off, ?_, ?_, h.edge, h.held, h.works, Naps.say h.fin⟩
    · intro p' hp' x hx hd
      have hd : upd s.stage t .pushed x = .done := hd
      have hne : x ≠ t := by intro e; rw [e, upd_same] at hd; cases hd
      rw [upd_ne _ _ hne] at hd
      exact h.q p' hp' x hx hd
    · intro hI x hx hd
      have hd : upd s.stage t .pushed x = .done := hd
      have hne : x ≠ t := by intro e; rw [e, upd_same] at hd; cases hd
      rw [upd_ne _ _ hne] at hd
      exact h.i hI x hx hd
  | accI =>
    refine ⟨h.off, ?_, ?_, h.edge, h.held, h.works, Naps.say h.fin⟩
    · intro p' hp' x hx hd
      have hd : upd s.stage s.next .pushed x = .done := hd
      have hne : x ≠ s.next := by intro e; rw [e, upd_same] at hd; cases hd
      rw [upd_ne _ _ hne] at hd
      exact h.q p' hp' x hx hd
    · intro hI x hx hd
      have hd : upd s.stage s.next .pushed x = .done := hd
      have hne : x ≠ s.next := by intro e; rw [e, upd_same] at hd; cases hd
      rw [upd_ne _ _ hne] at hd
      have hx : x ∈ s.inner ++ [s.next] := hx
      exact h.i hI x (by simpa [hne] using hx) hd
  | ret t hst hp =>
    refine ⟨h.off, ?_, ?_, h.edge, h.held, h.works, Naps.say h.fin⟩
    · intro p' hp'
      have := h.off hp'.doze
      rw [hp] at this; cases this
    · intro hI
      have := h.off hI.doze
      rw [hp] at this; cases this
  | see t hst hp =>
    refine ⟨h.off, ?_, ?_, h.edge, h.held, h.works, h.fin⟩
    · intro p' hp' x hx hd
      have hd : upd s.stage t .waking x = .done := hd
      have hne : x ≠ t := by intro e; rw [e, upd_same] at hd; cases hd
      rw [upd_ne _ _ hne] at hd
      exact h.q p' hp' x hx hd
    · intro hI x hx hd
      have hd : upd s.stage t .waking x = .done := hd
      have hne : x ≠ t := by intro e; rw [e, upd_same] at hd; cases hd
      rw [upd_ne _ _ hne] at hd
      exact h.i hI x hx hd
  | wake t hst => exact ⟨h.off, fun _ _ _ _ _ => ⟨rfl, rfl⟩, fun _ _ _ _ => ⟨rfl, rfl⟩, fun _ => .inl rfl, fun _ => rfl, h.works, Naps.say h.fin⟩
  | stop => exact ⟨h.off, h.q, h.i, h.edge, h.held, h.works, h.fin⟩
  | react => exact h.react hi
  | report b hp hc =>
    exact ⟨(by intro h; cases h), (by intro p h; cases h), (by intro h; cases h), fun _ => .inr trivial, fun _ => hc.1, by simp, (by intro h; cases h)⟩
  | other b hp hc =>
    refine ⟨(by intro h; cases h), (by intro p h; cases h), (by intro h; cases h), ?_, (by intro h; cases h), by simp, (by intro h; cases h)⟩
    intro h1
    rcases h.edge h1 with h2 | h2
    · exact absurd ⟨h1, h2⟩ hc
    · rw [hp] at h2; cases h2

theorem Reach.inv {cap : Nat} {s : S} (h : Reach cap s) : Inv cap s ∧ Naps s := by
  induction h with
  | init => exact ⟨.init cap, .init cap⟩
  | step _ hs ih => exact ⟨ih.1.step hs, Naps.step ih.1 ih.2 hs⟩

/-! ## Prefixes of the log -/

theorem Fits.init {cap : Nat} {l m : List Ev} (h : Fits cap (l ++ m)) : Fits cap l := by
  intro l1 e l2 hl
  exact h l1 e (l2 ++ m) (by rw [hl]; simp)

theorem rev_ind {P : List Ev → Prop} (h0 : P []) (h1 : ∀ l e, P l → P (l ++ [e])) (l : List Ev) : P l := by
  have : ∀ l : List Ev, P l.reverse := by
    intro l
    induction l with
    | nil => exact h0
    | cons e l ih => rw [List.reverse_cons]; exact h1 _ _ ih
  simpa using this l.reverse

theorem Fits.runs {cap : Nat} (p : Nat) (l : List Ev) : Fits cap l → runs p l <+: accs p l := by
  refine rev_ind (P := fun l => Fits cap l → Tasks.runs p l <+: accs p l) ?_ ?_ l
  · intro _; exact List.prefix_refl _
  · intro l e ih h
    have hok := h l e [] rfl
    have ih := ih h.init
    rw [runs_append, accs_append]
    cases e with
    | run p' t =>
      by_cases e : p' = p
      · subst e
        obtain ⟨-, ⟨r, hr⟩, -⟩ := hok
        have e1 : Tasks.runs p' [.run p' t] = [t] := by simp [Tasks.runs]
        have e2 : accs p' [.run p' t] = [] := rfl
        rw [e1, e2, hr]
        exact ⟨r, by simp⟩
      · have e1 : Tasks.runs p [.run p' t] = [] := by simp [Tasks.runs, e]
        have e2 : accs p [.run p' t] = [] := rfl
        rw [e1, e2]; simpa using ih
    | _ => exact List.IsPrefix.trans (by simp [Tasks.runs]; exact ih) (List.prefix_append _ _)

theorem Fits.cyc {cap : Nat} (l : List Ev) : Fits cap l → (call l).map (·.1) = (List.range (call l).length).map fun k => tbl (k % 10) := by
  refine rev_ind (P := fun l => Fits cap l → (call l).map (·.1) = (List.range (call l).length).map fun k => tbl (k % 10)) ?_ ?_ l
  · intro _; rfl
  · intro l e ih h
    have hok := h l e [] rfl
    have ih := ih h.init
    rw [call_one]
    cases e with
    | run p t =>
      have := hok.1
      simp [Ev.call, List.range_succ] at ih ⊢
      exact ⟨ih, this⟩
    | empty p =>
      have := hok.1
      simp [Ev.call, List.range_succ] at ih ⊢
      exact ⟨ih, this⟩
    | begin c => rfl
    | _ => exact ih

/-- A call that has looked ten times has looked at every queue. -/
theorem all_queues {c : List (Nat × Bool)} (h : c.map (·.1) = (List.range c.length).map fun k => tbl (k % 10)) (i : Nat) (h10 : i + 10 ≤ c.length) {p : Nat} (hp : p < 4) :
    ∃ b, (p, b) ∈ c.drop i := by
  have key : ∃ j, i ≤ j ∧ j < i + 10 ∧ tbl (j % 10) = p := by
    have h4 : p = 0 ∨ p = 1 ∨ p = 2 ∨ p = 3 := by omega
    rcases h4 with rfl | rfl | rfl | rfl
    · exact ⟨i + (9 + 10 - i % 10) % 10, by omega, by omega, by rw [show (i + (9 + 10 - i % 10) % 10) % 10 = 9 by omega]; rfl⟩
    · exact ⟨i + (8 + 10 - i % 10) % 10, by omega, by omega, by rw [show (i + (8 + 10 - i % 10) % 10) % 10 = 8 by omega]; rfl⟩
    · exact ⟨i + (7 + 10 - i % 10) % 10, by omega, by omega, by rw [show (i + (7 + 10 - i % 10) % 10) % 10 = 7 by omega]; rfl⟩
    · exact ⟨i + (6 + 10 - i % 10) % 10, by omega, by omega, by rw [show (i + (6 + 10 - i % 10) % 10) % 10 = 6 by omega]; rfl⟩
  obtain ⟨j, h1, h2, h3⟩ := key
  have hj : j < c.length := by omega
  have e : (c[j]).1 = p := by
    have : (c.map (·.1))[j]'(by simpa using hj) = ((List.range c.length).map fun k => tbl (k % 10))[j]'(by simpa using hj) := by simp only [h]
    simpa [h3] using this
  refine ⟨(c[j]).2, ?_⟩
  rw [← e]
  have : c[j] = (c.drop i)[j - i]'(by simp; omega) := by
    rw [List.getElem_drop]
    congr 1; omega
  show c[j] ∈ c.drop i
  rw [this]
  exact List.getElem_mem _

def Ev.isBegin : Ev → Bool
  | .begin _ => true
  | _ => false

/-- What a call has looked at is in the log. -/
theorem in_call {l m : List Ev} {c : Bool} (hm : ∀ e ∈ m, e.isBegin = false) {p : Nat} {b : Bool} (h : (p, b) ∈ call (l ++ .begin c :: m)) :
    ∃ x e y, m = x ++ e :: y ∧ ((b = false ∧ e = .empty p) ∨ (b = true ∧ ∃ t, e = .run p t)) := by
  revert hm h
  refine rev_ind (P := fun m => (∀ e ∈ m, e.isBegin = false) → (p, b) ∈ call (l ++ .begin c :: m) → ∃ x e y, m = x ++ e :: y ∧ ((b = false ∧ e = .empty p) ∨ (b = true ∧ ∃ t, e = .run p t))) ?_ ?_ m
  · intro _ h
    rw [show l ++ [Ev.begin c] = l ++ [Ev.begin c] from rfl, call_one] at h
    cases h
  · intro m e ih hm h
    rw [show l ++ Ev.begin c :: (m ++ [e]) = (l ++ Ev.begin c :: m) ++ [e] by simp, call_one] at h
    have old : (p, b) ∈ call (l ++ .begin c :: m) → ∃ x f y, m ++ [e] = x ++ f :: y ∧ ((b = false ∧ f = .empty p) ∨ (b = true ∧ ∃ t, f = .run p t)) := by
      intro h
      obtain ⟨x, f, y, h1, h2⟩ := ih (fun e he => hm e (by simp [he])) h
      exact ⟨x, f, y ++ [e], by rw [h1]; simp, h2⟩
    have he := hm e (by simp)
    cases e with
    | run p' t =>
      rcases List.mem_append.1 h with h | h
      · exact old h
      · simp at h
        obtain ⟨rfl, rfl⟩ := h
        exact ⟨m, _, [], rfl, .inr ⟨rfl, t, rfl⟩⟩
    | empty p' =>
      rcases List.mem_append.1 h with h | h
      · exact old h
      · simp at h
        obtain ⟨rfl, rfl⟩ := h
        exact ⟨m, _, [], rfl, .inl ⟨rfl, rfl⟩⟩
    | begin c => cases he
    | _ => exact old h

theorem mono_accs {p : Nat} {l m : List Ev} : accs p l <+: accs p (l ++ m) := by rw [accs_append]; exact List.prefix_append _ _
theorem mono_runs {p : Nat} {l m : List Ev} : runs p l <+: runs p (l ++ m) := by rw [runs_append]; exact List.prefix_append _ _

/-- When `Pop` fails, all tasks have run that were completely submitted before, if nothing was half submitted. -/
theorem empty_means {cap : Nat} {l m : List Ev} {p : Nat} (h : Fits cap (l ++ m ++ [.empty p])) (hpub : ∀ t ∈ accs p l, .pub t ∈ l) : ∀ t ∈ accs p l, t ∈ runs p (l ++ m) := by
  have hok := h (l ++ m) (.empty p) [] rfl
  obtain ⟨r, hr⟩ := h.init.runs p (l ++ m)
  cases r with
  | nil =>
    intro t ht
    rw [List.append_nil] at hr
    rw [hr]
    exact mono_accs.subset ht
  | cons t0 r =>
    have hno := hok.2 t0 r hr.symm
    have hn : t0 ∉ accs p l := fun h0 => hno (List.mem_append_left _ (hpub t0 h0))
    intro t ht
    have h1 : runs p (l ++ m) ++ [t0] <+: accs p (l ++ m) := ⟨r, by rw [← hr]; simp⟩
    by_cases hlen : (accs p l).length ≤ (runs p (l ++ m)).length
    · exact (List.prefix_of_prefix_length_le mono_accs ⟨_, hr⟩ hlen).subset ht
    · have h2 := List.prefix_of_prefix_length_le h1 (mono_accs (p := p) (l := l) (m := m)) (by rw [List.length_append, List.length_singleton]; omega)
      exact absurd (h2.subset (by simp)) hn

theorem next_means {cap : Nat} {l m : List Ev} {p t : Nat} {r : List Nat} (h : Fits cap (l ++ m)) (hr : accs p l = runs p l ++ t :: r) (hlt : (runs p l).length < (runs p (l ++ m)).length) :
    ∃ r', runs p (l ++ m) = runs p l ++ t :: r' := by
  have h1 : runs p l ++ [t] <+: accs p (l ++ m) := List.IsPrefix.trans ⟨r, by rw [hr]; simp⟩ mono_accs
  obtain ⟨r', h2⟩ := List.prefix_of_prefix_length_le h1 (h.runs p _) (by rw [List.length_append, List.length_singleton]; omega)
  exact ⟨r', by rw [← h2]; simp⟩

theorem runs_le {p : Nat} {l m : List Ev} : (runs p l).length ≤ (runs p (l ++ m)).length := mono_runs.length_le

theorem found_le (c : List (Nat × Bool)) : found c ≤ c.length := List.length_filter_le ..

theorem last_begin {l : List Ev} (h : last l = true) : ∃ x y, l = x ++ .begin true :: y ∧ ∀ e ∈ y, e.isBegin = false := by
  revert h
  refine rev_ind (P := fun l => last l = true → ∃ x y, l = x ++ .begin true :: y ∧ ∀ e ∈ y, e.isBegin = false) ?_ ?_ l
  · intro h; cases h
  · intro l e ih h
    have old : e.isBegin = false → last l = true → ∃ x y, l ++ [e] = x ++ .begin true :: y ∧ ∀ e ∈ y, e.isBegin = false := by
      intro he h
      obtain ⟨x, y, h1, h2⟩ := ih h
      refine ⟨x, y ++ [e], by rw [h1]; simp, ?_⟩
      intro f hf
      rcases List.mem_append.1 hf with hf | hf
      · exact h2 f hf
      · simp at hf; rw [hf]; exact he
    cases e with
    | begin c =>
      have : c = true := by simpa [last] using h
      subst this
      exact ⟨l, [], rfl, by simp⟩
    | _ => exact old rfl (by simpa [last] using h)

/-! ## Properties -/

/-- **C98a.** The tasks of a priority are called in the order in which they were submitted, each once, after they were stored; so are inner tasks. -/
theorem C98_order {cap : Nat} {s : S} (h : Reach cap s) : (∀ p, runs p s.log <+: accs p s.log) ∧ runsI s.log <+: accsI s.log ∧
    ∀ l1 l2 p t, s.log = l1 ++ .run p t :: l2 → .pub t ∈ l1 := by
  refine ⟨fun p => ⟨_, (h.inv.1.fifo p).symm⟩, ⟨_, h.inv.1.fifoI.symm⟩, ?_⟩
  intro l1 l2 p t hl
  exact (h.inv.1.fits l1 _ l2 hl).2.2.1

/-- **C98b.** A submission is refused only if the queue is full, and a queue never has more tasks than it has room for. -/
theorem C98_full {cap : Nat} {s : S} (h : Reach cap s) : (∀ p, (accs p s.log).length ≤ (runs p s.log).length + cap) ∧
    ∀ l1 l2 p, s.log = l1 ++ .full p :: l2 → (accs p l1).length = (runs p l1).length + cap := by
  refine ⟨?_, fun l1 l2 p hl => h.inv.1.fits l1 _ l2 hl⟩
  intro p
  rw [h.inv.1.fifo p, List.length_append]
  have := h.inv.1.room p
  omega

/-- **C98c.** In each call `HandleTask` looks at the queues in a fixed order that begins again after ten: of ten looks in a row four are for the highest priority, then three, two and one. -/
theorem C98_turns {cap : Nat} {s : S} (h : Reach cap s) : (call s.log).map (·.1) = (List.range (call s.log).length).map (fun k => tbl (k % 10)) ∧
    (∀ i p, ((List.range 10).filter fun k => tbl ((i + k) % 10) = p).length = if p < 4 then p + 1 else 0) := by
  refine ⟨h.inv.1.polls, ?_⟩
  intro i p
  have key : ∀ j, j < 10 → ∀ p, p < 4 → ((List.range 10).filter fun k => tbl ((j + k) % 10) = p).length = p + 1 := by decide
  have e : ∀ k, (i + k) % 10 = (i % 10 + k) % 10 := by intro k; omega
  simp only [e]
  split
  · rename_i hp
    exact key _ (Nat.mod_lt _ (by omega)) p hp
  · rename_i hp
    have : ∀ k, k < 10 → tbl k < 4 := by decide
    rw [List.length_eq_zero_iff, List.filter_eq_nil_iff]
    intro k _
    have := this ((i % 10 + k) % 10) (Nat.mod_lt _ (by omega))
    simp only [decide_eq_true_eq]
    omega

/-- **C98d.** A call of `HandleTask` runs at most 500 tasks, except the last one; it says that tasks are left only after 500, and that none is left only if the last ten looks found none. -/
theorem C98_batch {cap : Nat} {s : S} (h : Reach cap s) : (∀ l1 l2 p t, s.log = l1 ++ .run p t :: l2 → last l1 = false → found (call l1) < 500) ∧
    (∀ l1 l2, s.log = l1 ++ .fin true :: l2 → found (call l1) = 500) ∧
    ∀ l1 l2, s.log = l1 ++ .fin false :: l2 → ∃ a b, call l1 = a ++ b ∧ b.length = 10 ∧ ∀ x ∈ b, x.2 = false :=
  ⟨fun l1 l2 _ _ hl => (h.inv.1.fits l1 _ l2 hl).2.2.2, fun l1 l2 hl => ((h.inv.1.fits l1 _ l2 hl).1 rfl).2, fun l1 l2 hl => (h.inv.1.fits l1 _ l2 hl).2 rfl⟩

/-- **C98e.** No priority starves: the task that is next in its queue when a call of `HandleTask` begins is called in this call. -/
theorem C98_next {cap : Nat} {s : S} (h : Reach cap s) {l1 m l2 : List Ev} {c left : Bool} (hl : s.log = l1 ++ .begin c :: (m ++ .fin left :: l2)) (hm : ∀ e ∈ m, e.isBegin = false)
    {p t : Nat} {r : List Nat} (hp : p < 4) (hr : accs p l1 = runs p l1 ++ t :: r) (ht : .pub t ∈ l1) : ∃ r', runs p (l1 ++ .begin c :: m) = runs p l1 ++ t :: r' := by
  have hl' : s.log = (l1 ++ .begin c :: m) ++ .fin left :: l2 := by rw [hl]; simp
  have hok := h.inv.1.fits _ _ _ hl'
  have hf : Fits cap (l1 ++ .begin c :: m) := by
    have := h.inv.1.fits
    rw [hl'] at this
    exact this.init
  have h10 : 10 ≤ (call (l1 ++ .begin c :: m)).length := by
    cases left with
    | true =>
      have := (hok.1 rfl).2
      have := found_le (call (l1 ++ .begin c :: m))
      omega
    | false =>
      obtain ⟨a, b, h1, h2, -⟩ := hok.2 rfl
      rw [h1, List.length_append]; omega
  obtain ⟨b, hb⟩ := all_queues hf.cyc 0 (by omega) hp
  obtain ⟨x, e, y, hx, he⟩ := in_call hm (by simpa using hb)
  refine next_means hf hr ?_
  rcases he with ⟨-, rfl⟩ | ⟨-, t', rfl⟩
  · have hfx : Fits cap (l1 ++ (.begin c :: x)) := by
      rw [hx, show l1 ++ Ev.begin c :: (x ++ Ev.empty p :: y) = (l1 ++ .begin c :: x) ++ .empty p :: y by simp] at hf
      exact hf.init
    have hempty := hf (l1 ++ .begin c :: x) (.empty p) y (by rw [hx]; simp)
    have hle : (runs p (l1 ++ .begin c :: x)).length ≤ (runs p (l1 ++ .begin c :: m)).length := by
      rw [hx, show l1 ++ Ev.begin c :: (x ++ Ev.empty p :: y) = (l1 ++ .begin c :: x) ++ .empty p :: y by simp]
      exact runs_le
    have hlt : (runs p l1).length < (runs p (l1 ++ .begin c :: x)).length := by
      apply Nat.lt_of_not_le
      intro hge
      have hge2 := runs_le (p := p) (l := l1) (m := .begin c :: x)
      have heq : runs p l1 = runs p (l1 ++ .begin c :: x) := mono_runs.eq_of_length (by omega)
      have h1 : accs p (l1 ++ .begin c :: x) = runs p (l1 ++ .begin c :: x) ++ t :: (r ++ accs p (.begin c :: x)) := by
        rw [← heq, accs_append, hr]; simp
      exact hempty.2 _ _ h1 (List.mem_append_left _ ht)
    omega
  · have e1 : l1 ++ Ev.begin c :: m = (l1 ++ .begin c :: x ++ [.run p t']) ++ y := by rw [hx]; simp
    have h1 := runs_le (p := p) (l := l1 ++ .begin c :: x ++ [.run p t']) (m := y)
    have h2 := runs_le (p := p) (l := l1) (m := .begin c :: x)
    have e2 : runs p [.run p t'] = [t'] := by simp [runs]
    rw [e1]
    rw [runs_append p (l1 ++ .begin c :: x), e2, List.length_append, List.length_singleton] at h1
    omega

/-- **C98f.** When `HandleTask` says that nothing is left, every task of a priority has been called that was submitted before the call, unless one was then half submitted. -/
theorem C98_done {cap : Nat} {s : S} (h : Reach cap s) {l1 m l2 : List Ev} {c : Bool} (hl : s.log = l1 ++ .begin c :: (m ++ .fin false :: l2)) (hm : ∀ e ∈ m, e.isBegin = false)
    {p : Nat} (hp : p < 4) (hpub : ∀ t ∈ accs p l1, .pub t ∈ l1) : ∀ t ∈ accs p l1, t ∈ runs p (l1 ++ .begin c :: m) := by
  have hl' : s.log = (l1 ++ .begin c :: m) ++ .fin false :: l2 := by rw [hl]; simp
  have hok := h.inv.1.fits _ _ _ hl'
  have hf : Fits cap (l1 ++ .begin c :: m) := by
    have := h.inv.1.fits
    rw [hl'] at this
    exact this.init
  obtain ⟨a, b, h1, h2, h3⟩ := hok.2 rfl
  obtain ⟨v, hv⟩ := all_queues hf.cyc a.length (by rw [h1, List.length_append]; omega) hp
  have hv2 : (p, v) ∈ b := by rw [h1] at hv; simpa using hv
  have : v = false := h3 _ hv2
  subst this
  obtain ⟨x, e, y, hx, he⟩ := in_call hm (p := p) (b := false) (by rw [h1]; exact List.mem_append_right _ hv2)
  rcases he with ⟨-, rfl⟩ | ⟨he, -⟩
  · intro t ht
    have e1 : l1 ++ Ev.begin c :: m = (l1 ++ .begin c :: x ++ [.empty p]) ++ y := by rw [hx]; simp
    rw [e1] at hf ⊢
    have := empty_means (m := .begin c :: x) hf.init hpub t ht
    rw [runs_append, runs_append]
    exact List.mem_append_left _ (List.mem_append_left _ this)
  · cases he

/-- **C98g.** The last call of `HandleTask`, after which `Run` returns, is such a call. -/
theorem C98_last {cap : Nat} {s : S} (h : Reach cap s) (ho : s.pc = .over) : ∃ l1 m l2, s.log = l1 ++ .begin true :: (m ++ .fin false :: l2) ∧ ∀ e ∈ m, e.isBegin = false := by
  obtain ⟨l, l2, h1, h2⟩ := h.inv.2.fin ho
  obtain ⟨x, y, h3, h4⟩ := last_begin h2
  exact ⟨x, y, l2, by rw [h1, h3]; simp, h4⟩

/-- **C98h.** No wake-up is lost: if the reactor sleeps and there is a task, of any kind, whose submission has returned, then the eventfd ends the sleep. -/
theorem C98_wakes {cap : Nat} {s : S} (h : Reach cap s) (hp : s.pc = .wait true) {t : Nat} (hr : .ret t ∈ s.log)
    (ht : (∃ p, p < 4 ∧ t ∈ accs p s.log ∧ t ∉ runs p s.log) ∨ (t ∈ accsI s.log ∧ t ∉ runsI s.log)) : s.cnt = true ∧ s.rdy = true := by
  have hd := h.inv.1.ret t hr
  rcases ht with ⟨p, h4, h1, h2⟩ | ⟨h1, h2⟩
  · rw [h.inv.1.fifo p] at h1
    rcases List.mem_append.1 h1 with h1 | h1
    · exact absurd h1 h2
    · exact h.inv.2.q p (by rw [hp]; exact h4) t h1 hd
  · rw [h.inv.1.fifoI, hp] at h1
    rcases List.mem_append.1 h1 with h1 | h1
    · exact absurd h1 h2
    · exact h.inv.2.i (by rw [hp]; trivial) t (by simpa [Pc.loc] using h1) hd

/-- **C98i.** The assertion of the notifier holds: whenever the eventfd is reported, it can be read. -/
theorem C98_notifier {cap : Nat} {s : S} (h : Reach cap s) : s.pc ≠ .failed := h.inv.2.works

/-! ## Runs -/

def S.reacts (s : S) : Nat → S
  | 0 => s
  | n + 1 => s.react.reacts n

theorem Reach.reacts {cap : Nat} {s : S} (h : Reach cap s) (n : Nat) : Reach cap (s.reacts n) := by
  induction n generalizing s with
  | zero => exact h
  | succ n ih => exact ih (h.step .react)

/-- Tasks of all kinds are called; the reactor sleeps, is woken up by a submission, and stops. -/
example : ∃ s, Reach 2 s ∧ s.pc = .over ∧ runsI s.log = [1] ∧ runs 0 s.log = [0] ∧ runs 3 s.log = [2] ∧ .ret 2 ∈ s.log := by
  have h := (Reach.init (cap := 2)).step (.acc 0 (by decide) (by decide))
  have h := h.step (.pub 0 (by decide +kernel))
  have h := h.step .accI
  have h := h.step (.see 0 (by decide +kernel) (by decide +kernel))
  have h := h.step (.wake 0 (by decide +kernel))
  have h := h.reacts (4 + 20 + 7)
  have h := h.step (.report true (by decide +kernel) (by decide +kernel))
  have h := h.reacts (2 + 3 + 10 + 7)
  have h := h.step (.acc 3 (by decide) (by decide +kernel))
  have h := h.step (.pub 2 (by decide +kernel))
  have h := h.step (.see 2 (by decide +kernel) (by decide +kernel))
  have h := h.step (.wake 2 (by decide +kernel))
  have h := h.step (.report true (by decide +kernel) (by decide +kernel))
  have h := h.step .stop
  have h := h.reacts (2 + 3 + 11)
  exact ⟨_, h, by decide +kernel, by decide +kernel, by decide +kernel, by decide +kernel, by decide +kernel⟩

/-- A queue without room refuses. -/
example : ∃ s, Reach 1 s ∧ .full 2 ∈ s.log := by
  have h := (Reach.init (cap := 1)).step (.acc 2 (by decide) (by decide))
  have h := h.step (.full 2 (by decide) (by decide +kernel))
  exact ⟨_, h, by decide +kernel⟩

/-- What is not called when `Run` returns is never called. -/
theorem over_step {s s' : S} (ho : s.pc = .over) (hs : Step s s') : s'.pc = .over ∧ (∀ p, runs p s'.log = runs p s.log) ∧ runsI s'.log = runsI s.log := by
  cases hs with
  | react =>
    have : s.react = s := by unfold S.react; rw [ho]
    rw [this]; exact ⟨ho, fun _ => rfl, rfl⟩
  | report b hp hc => rw [ho] at hp; cases hp
  | other b hp hc => rw [ho] at hp; cases hp
  | _ => exact ⟨ho, fun p => by simp [S.say, runs], by simp [S.say, runsI]⟩

/-- Executions from a state. -/
inductive After (s : S) : S → Prop
  | refl : After s s
  | step {s1 s2 : S} (h : After s s1) (hs : Step s1 s2) : After s s2

theorem After.over {s s' : S} (h : After s s') (ho : s.pc = .over) : s'.pc = .over ∧ (∀ p, runs p s'.log = runs p s.log) ∧ runsI s'.log = runsI s.log := by
  induction h with
  | refl => exact ⟨ho, fun _ => rfl, rfl⟩
  | step _ hs ih =>
    have := over_step ih.1 hs
    exact ⟨this.1, fun p => (this.2.1 p).trans (ih.2.1 p), this.2.2.trans ih.2.2⟩

/-- **C99a.** A task may be accepted when the reactor has stopped; it is never called. -/
theorem C99_late_partial : ∃ s, Reach 1 s ∧ s.pc = .over ∧ s.log.getLast? = some (.ret 0) ∧ accs 3 s.log = [0] ∧ ∀ s', After s s' → runs 3 s'.log = [] := by
  have h := (Reach.init (cap := 1)).step .stop
  have h := h.reacts (3 + 10)
  have h := h.step (.acc 3 (by decide) (by decide +kernel))
  have h := h.step (.pub 0 (by decide +kernel))
  have h := h.step (.see 0 (by decide +kernel) (by decide +kernel))
  have h := h.step (.wake 0 (by decide +kernel))
  refine ⟨_, h, by decide +kernel, by decide +kernel, by decide +kernel, ?_⟩
  intro s' ha
  exact ((ha.over (by decide +kernel)).2.1 3).trans (by decide +kernel)

/-- **C99b.** So may a task whose submission returned before the reactor was stopped, if another one was half submitted. -/
theorem C99_half_partial : ∃ s, Reach 2 s ∧ s.pc = .over ∧ s.log.take 5 = [.acc 3 0, .acc 3 1, .pub 1, .ret 1, .begin true] ∧ ∀ s', After s s' → runs 3 s'.log = [] := by
  have h := (Reach.init (cap := 2)).step (.acc 3 (by decide) (by decide))
  have h := h.step (.acc 3 (by decide) (by decide))
  have h := h.step (.pub 1 (by decide +kernel))
  have h := h.step (.see 1 (by decide +kernel) (by decide +kernel))
  have h := h.step (.wake 1 (by decide +kernel))
  have h := h.step .stop
  have h := h.reacts (3 + 10)
  refine ⟨_, h, by decide +kernel, by decide +kernel, ?_⟩
  intro s' ha
  exact ((ha.over (by decide +kernel)).2.1 3).trans (by decide +kernel)

/-- **C99c.** An inner task that is submitted by one of the last tasks is never called. -/
theorem C99_inner_partial : ∃ s, Reach 1 s ∧ s.pc = .over ∧ s.log.take 6 = [.acc 3 0, .pub 0, .ret 0, .begin true, .run 3 0, .accI 1] ∧ .ret 1 ∈ s.log ∧
    ∀ s', After s s' → runsI s'.log = [] := by
  have h := (Reach.init (cap := 1)).step (.acc 3 (by decide) (by decide))
  have h := h.step (.pub 0 (by decide +kernel))
  have h := h.step (.see 0 (by decide +kernel) (by decide +kernel))
  have h := h.step (.wake 0 (by decide +kernel))
  have h := h.step .stop
  have h := h.reacts (3 + 1)
  have h := h.step .accI
  have h := h.step (.see 1 (by decide +kernel) (by decide +kernel))
  have h := h.step (.wake 1 (by decide +kernel))
  have h := h.reacts 10
  refine ⟨_, h, by decide +kernel, by decide +kernel, by decide +kernel, ?_⟩
  intro s' ha
  exact ((ha.over (by decide +kernel)).2.2).trans (by decide +kernel)

end Verif.Reactor.Tasks
