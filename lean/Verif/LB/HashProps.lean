import Verif.LB.HashSpec
/-!
# Properties C18, C29, C35, C36: hash load balancing
-/

namespace Verif.LB.Hash

/-! ## Lemmas -/

theorem mem_erase (r : Ring) (k : UInt64) (p : UInt64 × Endpoint) : p ∈ erase r k ↔ p ∈ r ∧ p.1 ≠ k := by
  simp [erase]

theorem mem_insert (r : Ring) (k : UInt64) (e : Endpoint) (p : UInt64 × Endpoint) :
    p ∈ insert r k e ↔ p = (k, e) ∨ (p ∈ r ∧ p.1 ≠ k) := by
  simp [insert, mem_erase]

theorem mem_removeName (H : List Char → UInt64) (K : Nat) (r : Ring) (n : List Char) (p : UInt64 × Endpoint) :
    p ∈ removeName H K r n ↔ p ∈ r ∧ ∀ i, i < K → p.1 ≠ point H n i := by
  unfold removeName
  induction K with
  | zero => simp
  | succ K ih =>
    rw [List.range_succ, List.foldl_append]
    simp only [List.foldl_cons, List.foldl_nil]
    rw [mem_erase, ih]
    constructor
    · rintro ⟨⟨h1, h2⟩, h3⟩
      refine ⟨h1, fun i hi => ?_⟩
      by_cases e : i = K
      · subst e; exact h3
      · exact h2 i (by omega)
    · rintro ⟨h1, h2⟩
      exact ⟨⟨h1, fun i hi => h2 i (by omega)⟩, h2 K (by omega)⟩

theorem mem_addName (H : List Char → UInt64) (K : Nat) (r : Ring) (n : List Char) (e : Endpoint)
    (p : UInt64 × Endpoint) :
    p ∈ addName H K r n e ↔ (∃ i, i < K ∧ p = (point H n i, e)) ∨ (p ∈ r ∧ ∀ i, i < K → p.1 ≠ point H n i) := by
  unfold addName
  induction K with
  | zero => simp
  | succ K ih =>
    rw [List.range_succ, List.foldl_append]
    simp only [List.foldl_cons, List.foldl_nil]
    rw [mem_insert, ih]
    constructor
    · rintro (h | ⟨⟨i, hi, h⟩ | ⟨h1, h2⟩, h3⟩)
      · exact .inl ⟨K, by omega, h⟩
      · exact .inl ⟨i, by omega, h⟩
      · refine .inr ⟨h1, fun i hi => ?_⟩
        by_cases e : i = K
        · subst e; exact h3
        · exact h2 i (by omega)
    · rintro (⟨i, hi, h⟩ | ⟨h1, h2⟩)
      · by_cases e : p.1 = point H n K
        · left; rw [h] at e ⊢; simp only at e; rw [e]
        · refine .inr ⟨.inl ⟨i, ?_, h⟩, e⟩
          have : i ≠ K := fun e' => e (by rw [h, e'])
          omega
      · exact .inr ⟨.inr ⟨h1, fun i hi => h2 i (by omega)⟩, h2 K (by omega)⟩

/-- What the ring looks like when it serves the names satisfying `S`, all entries coming from `U`. -/
structure RingInv (H : List Char → UInt64) (K : Nat) (U : List Endpoint) (S : List Char → Prop) (r : Ring) : Prop where
  own : ∀ p ∈ r, S (Endpoint.name p.2) ∧ p.2 ∈ U ∧ ∃ i, i < K ∧ p.1 = point H (Endpoint.name p.2) i
  all : ∀ n, S n → ∀ i, i < K → ∃ e, (point H n i, e) ∈ r

theorem RingInv.congr {H K U r} {S T : List Char → Prop} (h : RingInv H K U S r) (hs : ∀ n, S n ↔ T n) :
    RingInv H K U T r :=
  ⟨fun p hp => by obtain ⟨a, b⟩ := h.own p hp; exact ⟨(hs _).1 a, b⟩, fun n hn => h.all n ((hs n).2 hn)⟩

theorem RingInv.remove {H K U S r} (h : RingInv H K U S r) {N : List (List Char)} (sep : Separate H K N)
    (hS : ∀ n, S n → n ∈ N) {n : List Char} (hn : n ∈ N) :
    RingInv H K U (fun m => S m ∧ m ≠ n) (removeName H K r n) := by
  constructor
  · intro p hp
    rw [mem_removeName] at hp
    obtain ⟨a, b, i, hi, c⟩ := h.own p hp.1
    refine ⟨⟨a, fun e => ?_⟩, b, i, hi, c⟩
    exact hp.2 i hi (by rw [c, e])
  · rintro m ⟨hm, hne⟩ i hi
    obtain ⟨e, he⟩ := h.all m hm i hi
    refine ⟨e, (mem_removeName ..).2 ⟨he, fun j hj => ?_⟩⟩
    exact sep m (hS m hm) n hn hne i j hi hj

theorem RingInv.add {H K U S r} (h : RingInv H K U S r) {N : List (List Char)} (sep : Separate H K N)
    (hS : ∀ n, S n → n ∈ N) {n : List Char} (hn : n ∈ N) {e : Endpoint} (he : Endpoint.name e = n) (heU : e ∈ U) :
    RingInv H K U (fun m => S m ∨ m = n) (addName H K r n e) := by
  constructor
  · intro p hp
    rw [mem_addName] at hp
    rcases hp with ⟨i, hi, rfl⟩ | ⟨hp, -⟩
    · exact ⟨.inr he, heU, i, hi, by rw [he]⟩
    · obtain ⟨a, b⟩ := h.own p hp
      exact ⟨.inl a, b⟩
  · intro m hm i hi
    by_cases e' : m = n
    · subst e'
      exact ⟨e, (mem_addName ..).2 (.inl ⟨i, hi, rfl⟩)⟩
    · obtain ⟨f, hf⟩ := h.all m (hm.resolve_right e') i hi
      refine ⟨f, (mem_addName ..).2 (.inr ⟨hf, fun j hj => ?_⟩)⟩
      exact sep m (hS m (hm.resolve_right e')) n hn e' i j hi hj

theorem foldl_remove {H K U} {N : List (List Char)} (sep : Separate H K N) (rem : List (List Char)) {S r}
    (h : RingInv H K U S r) (hS : ∀ n, S n → n ∈ N) (hN : ∀ n ∈ rem, n ∈ N) :
    RingInv H K U (fun m => S m ∧ m ∉ rem) (rem.foldl (removeName H K) r) := by
  induction rem generalizing S r with
  | nil => exact h.congr (by simp)
  | cons n rem ih =>
    have h1 := h.remove sep hS (hN n (by simp))
    exact (ih h1 (fun m hm => hS m hm.1) (fun m hm => hN m (by simp [hm]))).congr (by
      intro m
      simp only [List.mem_cons, not_or]
      constructor
      · rintro ⟨⟨a, b⟩, c⟩; exact ⟨a, b, c⟩
      · rintro ⟨a, b, c⟩; exact ⟨⟨a, b⟩, c⟩)

theorem lastWith_some {l : List Endpoint} {n : List Char} (h : n ∈ l.map Endpoint.name) :
    ∃ e, lastWith l n = some e ∧ e ∈ l ∧ Endpoint.name e = n := by
  unfold lastWith
  cases hf : l.reverse.find? (fun e => Endpoint.name e == n) with
  | none =>
    rw [List.find?_eq_none] at hf
    obtain ⟨e, he, rfl⟩ := List.mem_map.1 h
    exact absurd (hf e (by simpa using he)) (by simp)
  | some e =>
    exact ⟨e, rfl, by simpa using List.mem_of_find?_eq_some hf, by simpa using List.find?_some hf⟩

theorem foldl_add {H K U} {N : List (List Char)} (sep : Separate H K N) (new : List Endpoint)
    (hnew : ∀ e ∈ new, e ∈ U) (add : List (List Char)) {S r}
    (h : RingInv H K U S r) (hS : ∀ n, S n → n ∈ N) (hN : ∀ n ∈ add, n ∈ N)
    (hin : ∀ n ∈ add, n ∈ new.map Endpoint.name) :
    RingInv H K U (fun m => S m ∨ m ∈ add)
      (add.foldl (fun r n => match lastWith new n with | some e => addName H K r n e | none => r) r) := by
  induction add generalizing S r with
  | nil => exact h.congr (by simp)
  | cons n add ih =>
    obtain ⟨e, he1, he2, he3⟩ := lastWith_some (hin n (by simp))
    have h1 := h.add sep hS (hN n (by simp)) he3 (hnew e he2)
    simp only [List.foldl_cons, he1]
    exact (ih h1 (fun m hm => hm.elim (hS m) (fun e => e ▸ hN n (by simp))) (fun m hm => hN m (by simp [hm]))
      (fun m hm => hin m (by simp [hm]))).congr (by
        intro m; simp only [List.mem_cons]
        constructor
        · rintro ((a | a) | a)
          · exact .inl a
          · exact .inr (.inl a)
          · exact .inr (.inr a)
        · rintro (a | a | a)
          · exact .inl (.inl a)
          · exact .inl (.inr a)
          · exact .inr a)

theorem infoDiff_false {old new : List Endpoint} (h : infoDiff old new = false) :
    old.map Endpoint.name = new.map Endpoint.name ∧ old.map (fun e => (e.host, e.port, e.status)) =
      new.map (fun e => (e.host, e.port, e.status)) := by
  unfold infoDiff at h
  by_cases hl : old.length = new.length
  · simp only [hl, ne_eq, not_true_eq_false, if_false] at h
    induction old generalizing new with
    | nil => cases new with
      | nil => simp
      | cons => simp at hl
    | cons o old ih => cases new with
      | nil => simp at hl
      | cons w new =>
        simp only [List.zip_cons_cons, List.any_cons, Bool.or_eq_false_iff, bne_eq_false_iff_eq] at h
        obtain ⟨i1, i2⟩ := ih (by simpa using hl) h.2
        obtain ⟨⟨⟨a, b⟩, c⟩, -⟩ := h
        simp [Endpoint.name, a, b, c, i1, i2]
  · simp [hl] at h

/-- The ring after any history of updates. -/
theorem history_inv {H : List Char → UInt64} {K : Nat} {ls : List (List Endpoint)} {s : Infos}
    (h : History H K ls s) (sep : Separate H K (ls.flatten.map Endpoint.name)) :
    RingInv H K ls.flatten (· ∈ s.endpoints.map Endpoint.name) s.ring ∧
    (∀ n ∈ s.endpoints.map Endpoint.name, n ∈ ls.flatten.map Endpoint.name) ∧
    s.endpoints.map (fun e => (e.host, e.port, e.status)) =
      (ls.getLastD []).map (fun e => (e.host, e.port, e.status)) := by
  induction h with
  | start =>
    refine ⟨⟨by simp, by simp⟩, by simp, rfl⟩
  | @update ls s new s' _ hu ih =>
    have hflat : (ls ++ [new]).flatten = ls.flatten ++ new := by simp
    rw [hflat] at sep ⊢
    obtain ⟨h1, h2, h3⟩ := ih (fun n hn m hm => sep n (by simp only [List.map_append, List.mem_append]; exact .inl hn)
      m (by simp only [List.map_append, List.mem_append]; exact .inl hm))
    have h1' : RingInv H K (ls.flatten ++ new) (· ∈ s.endpoints.map Endpoint.name) s.ring :=
      ⟨fun p hp => by
        obtain ⟨a, b, c⟩ := h1.own p hp
        exact ⟨a, List.mem_append_left _ b, c⟩, h1.all⟩
    unfold Update at hu
    by_cases hd : infoDiff s.endpoints new = true
    · rw [if_pos hd] at hu
      obtain ⟨rem, add, hr, ha, rfl⟩ := hu
      have hN : ∀ n ∈ s.endpoints.map Endpoint.name, n ∈ (ls.flatten ++ new).map Endpoint.name := fun n hn => by
        rw [List.map_append, List.mem_append]; exact .inl (h2 n hn)
      have hN2 : ∀ n ∈ new.map Endpoint.name, n ∈ (ls.flatten ++ new).map Endpoint.name := fun n hn => by
        rw [List.map_append, List.mem_append]; exact .inr hn
      have g1 := foldl_remove sep rem h1' hN (fun n hn => hN n ((hr n).1 hn).1)
      have g2 := foldl_add sep new (fun e he => List.mem_append_right _ he) add g1 (fun n hn => hN n hn.1)
        (fun n hn => hN2 n ((ha n).1 hn).1) (fun n hn => ((ha n).1 hn).1)
      refine ⟨g2.congr ?_, hN2, by simp⟩
      intro m
      constructor
      · rintro (⟨a, b⟩ | a)
        · rcases Classical.em (m ∈ new.map Endpoint.name) with hm | hm
          · exact hm
          · exact absurd ((hr m).2 ⟨a, hm⟩) b
        · exact ((ha m).1 a).1
      · intro hm
        rcases Classical.em (m ∈ s.endpoints.map Endpoint.name) with ho | ho
        · exact .inl ⟨ho, fun hc => ((hr m).1 hc).2 hm⟩
        · exact .inr ((ha m).2 ⟨hm, ho⟩)
    · rw [if_neg hd] at hu
      subst hu
      have hd' : infoDiff s'.endpoints new = false := by simpa using hd
      obtain ⟨e1, e2⟩ := infoDiff_false hd'
      refine ⟨h1', ?_, ?_⟩
      · intro n hn
        rw [List.map_append, List.mem_append]; exact .inl (h2 n hn)
      · rw [e2]; simp

/-! ### The lookup -/

theorem minEntry_spec (r : Ring) : (r = [] ∧ minEntry r = none) ∨
    ∃ p, minEntry r = some p ∧ p ∈ r ∧ ∀ q ∈ r, p.1 ≤ q.1 := by
  induction r with
  | nil => exact .inl ⟨rfl, rfl⟩
  | cons p r ih =>
    right
    rcases ih with ⟨rfl, h⟩ | ⟨q, h, hq, hm⟩
    · exact ⟨p, by simp [minEntry], by simp, by simp⟩
    · simp only [minEntry, h]
      by_cases hlt : q.1 < p.1
      · refine ⟨q, by simp [hlt], by simp [hq], ?_⟩
        intro x hx
        rcases List.mem_cons.1 hx with rfl | hx
        · rw [UInt64.le_iff_toNat_le]; rw [UInt64.lt_iff_toNat_lt] at hlt; omega
        · exact hm x hx
      · refine ⟨p, by simp [hlt], by simp, ?_⟩
        intro x hx
        rcases List.mem_cons.1 hx with rfl | hx
        · exact UInt64.le_refl _
        · have := hm x hx
          rw [UInt64.le_iff_toNat_le] at *
          rw [UInt64.lt_iff_toNat_lt] at hlt
          omega

theorem cw_mono {x p q : UInt64} (h : p ≤ q) (hh : x ≤ p ∨ q < x) : cw x p ≤ cw x q := by
  unfold cw
  rw [UInt64.le_iff_toNat_le, UInt64.toNat_sub, UInt64.toNat_sub]
  have h1 := x.toNat_lt
  have h2 := p.toNat_lt
  have h3 := q.toNat_lt
  rw [UInt64.le_iff_toNat_le] at h
  rw [UInt64.le_iff_toNat_le, UInt64.lt_iff_toNat_lt] at hh
  omega

theorem cw_wrap {x p q : UInt64} (hp : x ≤ p) (hq : q < x) : cw x p ≤ cw x q := by
  unfold cw
  rw [UInt64.le_iff_toNat_le, UInt64.toNat_sub, UInt64.toNat_sub]
  have h1 := x.toNat_lt
  have h2 := p.toNat_lt
  have h3 := q.toNat_lt
  rw [UInt64.le_iff_toNat_le] at hp
  rw [UInt64.lt_iff_toNat_lt] at hq
  omega

theorem cw_inj {x p q : UInt64} (h : cw x p = cw x q) : p = q := by
  unfold cw at h
  have := congrArg (· + x) h
  simpa using this

/-- The lookup finds the clockwise nearest entry. -/
theorem lookup_spec {r : Ring} (h : r ≠ []) (x : UInt64) :
    ∃ p ∈ r, lookup r x = some p.2 ∧ ∀ q ∈ r, cw x p.1 ≤ cw x q.1 := by
  unfold lookup
  rcases minEntry_spec (r.filter (fun p => decide (x ≤ p.1))) with ⟨he, hn⟩ | ⟨p, h1, h2, h3⟩
  · rw [hn]
    rcases minEntry_spec r with ⟨he', -⟩ | ⟨p, h1, h2, h3⟩
    · exact absurd he' h
    · refine ⟨p, h2, by simp [h1], fun q hq => ?_⟩
      have : ¬ x ≤ q.1 := by
        intro hle
        have : q ∈ r.filter (fun p => decide (x ≤ p.1)) := by simp [hq, hle]
        rw [he] at this; simp at this
      refine cw_mono (h3 q hq) (.inr ?_)
      rw [UInt64.lt_iff_toNat_lt]; rw [UInt64.le_iff_toNat_le] at this; omega
  · rw [List.mem_filter] at h2
    have hx : x ≤ p.1 := by simpa using h2.2
    refine ⟨p, h2.1, by simp [h1], fun q hq => ?_⟩
    by_cases hle : x ≤ q.1
    · exact cw_mono (h3 q (by simp [hq, hle])) (.inl hx)
    · refine cw_wrap hx ?_
      rw [UInt64.lt_iff_toNat_lt]; rw [UInt64.le_iff_toNat_le] at hle; omega

/-! ## C18 -/

/-- **C18.**  After any history of updates whose last list `L` is not empty, a request with hash `x` gets an
endpoint with the address of one in `L`, namely the one owning `x`: clockwise nearest virtual node. -/
theorem C18_selects_owner (H : List Char → UInt64) (K : Nat) (hK : 0 < K) (ls : List (List Endpoint)) (s : Infos)
    (h : History H K ls s) (sep : Separate H K (ls.flatten.map Endpoint.name)) (faith : Faithful ls.flatten)
    (hne : ls.getLastD [] ≠ []) (hashKey : List Char) (h0 x : UInt64) (hx : requestHash hashKey h0 = some x) :
    ∃ e, s.next hashKey h0 = some (.ok e) ∧
      (∃ c ∈ ls.getLastD [], c.host = e.host ∧ c.port = e.port) ∧
      Owner H K ((ls.getLastD []).map Endpoint.name) x (Endpoint.name e) := by
  obtain ⟨inv, -, hep⟩ := history_inv h sep
  have hnames : s.endpoints.map Endpoint.name = (ls.getLastD []).map Endpoint.name := by
    have := congrArg (List.map (fun (t : List Char × Int × Int) => t.1 ++ (toString t.2.1).toList)) hep
    rw [List.map_map, List.map_map] at this
    exact this
  rw [hnames] at inv
  have hring : s.ring ≠ [] := by
    obtain ⟨c, hc⟩ := List.exists_mem_of_ne_nil _ hne
    obtain ⟨e, he⟩ := inv.all (Endpoint.name c) (List.mem_map_of_mem hc) 0 hK
    intro e'; rw [e'] at he; simp at he
  obtain ⟨p, hp1, hp2, hp3⟩ := lookup_spec hring x
  obtain ⟨q1, q2, i, hi, hpi⟩ := inv.own p hp1
  refine ⟨p.2, ?_, ?_, q1, i, hi, ?_⟩
  · unfold Infos.next
    have : ¬ s.ring.length < 1 := by
      have := List.length_pos_iff.2 hring; omega
    rw [if_neg this, hx]
    simp [hp2]
  · obtain ⟨c, hc, hcn⟩ := List.mem_map.1 q1
    have hcU : c ∈ ls.flatten := by
      rcases List.eq_nil_or_concat ls with rfl | ⟨ls', l, rfl⟩
      · simp at hne
      · rw [List.concat_eq_append] at hc ⊢
        simp at hc ⊢
        exact .inr hc
    exact ⟨c, hc, faith c hcU p.2 q2 hcn⟩
  · intro m hm j hj
    obtain ⟨e, he⟩ := inv.all m hm j hj
    rw [← hpi]
    exact hp3 _ he

/-- **C18, uniqueness.**  There is only one owner. -/
theorem C18_owner_unique (H : List Char → UInt64) (K : Nat) (names : List (List Char)) (sep : Separate H K names)
    (x : UInt64) (n m : List Char) (hn : Owner H K names x n) (hm : Owner H K names x m) : n = m := by
  obtain ⟨hn, i, hi, h1⟩ := hn
  obtain ⟨hm, j, hj, h2⟩ := hm
  rcases Classical.em (n = m) with e | e
  · exact e
  · exfalso
    exact sep n hn m hm e i j hi hj (cw_inj (UInt64.le_antisymm (h1 m hm j hj) (h2 n hn i hi)))

/-- Two histories that end in lists with the same set of endpoint names send every request to the same
address. -/
theorem C18_history_independent (H : List Char → UInt64) (K : Nat) (hK : 0 < K)
    (ls ms : List (List Endpoint)) (s t : Infos) (hs : History H K ls s) (ht : History H K ms t)
    (sep : Separate H K ((ls.flatten ++ ms.flatten).map Endpoint.name))
    (faith : Faithful (ls.flatten ++ ms.flatten)) (hne : ls.getLastD [] ≠ []) (hne' : ms.getLastD [] ≠ [])
    (hsame : ∀ n, n ∈ (ls.getLastD []).map Endpoint.name ↔ n ∈ (ms.getLastD []).map Endpoint.name)
    (hashKey : List Char) (h0 x : UInt64) (hx : requestHash hashKey h0 = some x) :
    ∃ e f, s.next hashKey h0 = some (.ok e) ∧ t.next hashKey h0 = some (.ok f) ∧
      e.host = f.host ∧ e.port = f.port := by
  have sepl : Separate H K (ls.flatten.map Endpoint.name) := fun n hn m hm =>
    sep n (by rw [List.map_append, List.mem_append]; exact .inl hn) m
      (by rw [List.map_append, List.mem_append]; exact .inl hm)
  have sepm : Separate H K (ms.flatten.map Endpoint.name) := fun n hn m hm =>
    sep n (by rw [List.map_append, List.mem_append]; exact .inr hn) m
      (by rw [List.map_append, List.mem_append]; exact .inr hm)
  have fl : Faithful ls.flatten := fun e he f hf => faith e (List.mem_append_left _ he) f (List.mem_append_left _ hf)
  have fm : Faithful ms.flatten := fun e he f hf => faith e (List.mem_append_right _ he) f (List.mem_append_right _ hf)
  obtain ⟨e, e1, ⟨c, hc, hce⟩, e3⟩ := C18_selects_owner H K hK ls s hs sepl fl hne hashKey h0 x hx
  obtain ⟨f, f1, ⟨d, hd, hdf⟩, f3⟩ := C18_selects_owner H K hK ms t ht sepm fm hne' hashKey h0 x hx
  have inl : ∀ {ls : List (List Endpoint)} {c}, c ∈ ls.getLastD [] → c ∈ ls.flatten := by
    intro ls c hc
    rcases List.eq_nil_or_concat ls with rfl | ⟨ls', l, rfl⟩
    · simp at hc
    · rw [List.concat_eq_append] at hc ⊢
      simp at hc ⊢
      exact .inr hc
  -- the owner of the second is an owner of the first
  have f3' : Owner H K ((ls.getLastD []).map Endpoint.name) x (Endpoint.name f) := by
    obtain ⟨a, i, hi, b⟩ := f3
    exact ⟨(hsame _).2 a, i, hi, fun m hm => b m ((hsame m).1 hm)⟩
  have sepL : Separate H K ((ls.getLastD []).map Endpoint.name) := by
    intro n hn m hm
    obtain ⟨n', hn', rfl⟩ := List.mem_map.1 hn
    obtain ⟨m', hm', rfl⟩ := List.mem_map.1 hm
    exact sepl _ (List.mem_map_of_mem (inl hn')) _ (List.mem_map_of_mem (inl hm'))
  have hnm := C18_owner_unique H K _ sepL x _ _ e3 f3'
  have nc : Endpoint.name c = Endpoint.name e := by simp [Endpoint.name, hce.1, hce.2]
  have nd : Endpoint.name d = Endpoint.name f := by simp [Endpoint.name, hdf.1, hdf.2]
  have := faith c (List.mem_append_left _ (inl hc)) d (List.mem_append_right _ (inl hd)) (by rw [nc, nd, hnm])
  exact ⟨e, f, e1, f1, by rw [← hce.1, ← hdf.1]; exact this.1, by rw [← hce.2, ← hdf.2]; exact this.2⟩

/-- **C18, minimal disruption.**  Going from the set of names `old` to `new`: a request that moves either left an
endpoint that was removed or went to one that was added. -/
theorem C18_minimal_disruption (H : List Char → UInt64) (K : Nat) (old new : List (List Char))
    (sep : Separate H K (old ++ new)) (x : UInt64) (n m : List Char) (hn : Owner H K old x n)
    (hm : Owner H K new x m) (hmove : n ≠ m) : n ∉ new ∨ m ∉ old := by
  rcases Classical.em (n ∈ new) with h1 | h1
  · rcases Classical.em (m ∈ old) with h2 | h2
    · exfalso
      obtain ⟨_, i, hi, a⟩ := hn
      obtain ⟨_, j, hj, b⟩ := hm
      exact sep n (List.mem_append_right _ h1) m (List.mem_append_left _ h2) hmove i j hi hj
        (cw_inj (UInt64.le_antisymm (a m h2 j hj) (b n h1 i hi)))
    · exact .inr h2
  · exact .inl h1

/-- **C18, minimal disruption, on requests.**  When a further list `new` is supplied, a request either stays with the
same address, or its old endpoint is not in `new`, or its new endpoint was not in the previous list. -/
theorem C18_update_moves_only_changed (H : List Char → UInt64) (K : Nat) (hK : 0 < K) (ls : List (List Endpoint))
    (new : List Endpoint) (s t : Infos) (hs : History H K ls s) (hu : Update H K s new t)
    (sep : Separate H K ((ls ++ [new]).flatten.map Endpoint.name)) (faith : Faithful (ls ++ [new]).flatten)
    (hne : ls.getLastD [] ≠ []) (hne' : new ≠ []) (hashKey : List Char) (h0 x : UInt64)
    (hx : requestHash hashKey h0 = some x) :
    ∃ e f, s.next hashKey h0 = some (.ok e) ∧ t.next hashKey h0 = some (.ok f) ∧
      ((e.host = f.host ∧ e.port = f.port) ∨ (∀ c ∈ new, ¬ (c.host = e.host ∧ c.port = e.port)) ∨
        (∀ c ∈ ls.getLastD [], ¬ (c.host = f.host ∧ c.port = f.port))) := by
  have hflat : (ls ++ [new]).flatten = ls.flatten ++ new := by simp
  have hlast : (ls ++ [new]).getLastD [] = new := by simp
  have sep' := sep
  have faith' := faith
  rw [hflat] at sep' faith'
  obtain ⟨e, e1, ⟨c, hc, hce⟩, e3⟩ := C18_selects_owner H K hK ls s hs
    (fun n hn m hm => sep' n (by rw [List.map_append, List.mem_append]; exact .inl hn) m
      (by rw [List.map_append, List.mem_append]; exact .inl hm))
    (fun a ha b hb => faith' a (List.mem_append_left _ ha) b (List.mem_append_left _ hb)) hne hashKey h0 x hx
  obtain ⟨f, f1, ⟨d, hd, hdf⟩, f3⟩ := C18_selects_owner H K hK (ls ++ [new]) t (.update hs hu) sep faith
    (by rw [hlast]; exact hne') hashKey h0 x hx
  rw [hlast] at hd f3
  refine ⟨e, f, e1, f1, ?_⟩
  have inl : ∀ {c}, c ∈ ls.getLastD [] → c ∈ ls.flatten := by
    intro c hc
    rcases List.eq_nil_or_concat ls with rfl | ⟨ls', l, rfl⟩
    · simp at hc
    · rw [List.concat_eq_append] at hc ⊢
      simp at hc ⊢
      exact .inr hc
  have nameEq : ∀ a b : Endpoint, a.host = b.host → a.port = b.port → a.name = b.name := by
    intro a b h1 h2; simp [Endpoint.name, h1, h2]
  rcases Classical.em (e.name = f.name) with hnm | hnm
  · left
    have := faith' c (List.mem_append_left _ (inl hc)) d (List.mem_append_right _ hd)
      (by rw [nameEq c e hce.1 hce.2, nameEq d f hdf.1 hdf.2, hnm])
    exact ⟨by rw [← hce.1, ← hdf.1]; exact this.1, by rw [← hce.2, ← hdf.2]; exact this.2⟩
  · right
    have sepo : Separate H K ((ls.getLastD []).map Endpoint.name ++ new.map Endpoint.name) := by
      have sub : ∀ n, n ∈ (ls.getLastD []).map Endpoint.name ++ new.map Endpoint.name →
          n ∈ (ls.flatten ++ new).map Endpoint.name := by
        intro n hn
        rw [List.map_append]
        rcases List.mem_append.1 hn with hn | hn
        · obtain ⟨n', hn', rfl⟩ := List.mem_map.1 hn
          exact List.mem_append_left _ (List.mem_map_of_mem (inl hn'))
        · exact List.mem_append_right _ hn
      exact fun n hn m hm => sep' n (sub n hn) m (sub m hm)
    rcases C18_minimal_disruption H K _ _ sepo x _ _ e3 f3 hnm with h | h
    · left
      rintro c hc ⟨h1, h2⟩
      exact h (nameEq c e h1 h2 ▸ List.mem_map_of_mem hc)
    · right
      rintro c hc ⟨h1, h2⟩
      exact h (nameEq c f h1 h2 ▸ List.mem_map_of_mem hc)

/-! Non-vacuity: a hash with separate virtual nodes for two concrete endpoints. -/

def e1 : Endpoint := ⟨"a".toList, 1, 0, 1, 0⟩
def e2 : Endpoint := ⟨"b".toList, 2, 0, 1, 0⟩
def bkdr (s : List Char) : UInt64 := s.foldl (fun h c => h * 131 + UInt64.ofNat c.toNat) 0

example : Separate bkdr 3 (([[e1], [e1, e2]] : List (List Endpoint)).flatten.map Endpoint.name) := by
  have h : ∀ n ∈ ([[e1], [e1, e2]] : List (List Endpoint)).flatten.map Endpoint.name,
      ∀ m ∈ ([[e1], [e1, e2]] : List (List Endpoint)).flatten.map Endpoint.name, n ≠ m →
        ∀ i ∈ List.range 3, ∀ j ∈ List.range 3, point bkdr n i ≠ point bkdr m j := by decide
  exact fun n hn m hm hne i j hi hj => h n hn m hm hne i (List.mem_range.2 hi) j (List.mem_range.2 hj)

example : Faithful ([[e1], [e1, e2]] : List (List Endpoint)).flatten := by
  unfold Faithful; decide

example : ∃ s, History bkdr 3 [[e1], [e1, e2]] s := by
  refine ⟨_, .update (ls := [[e1]]) (.update (ls := []) .start (s' := ⟨updateRing bkdr 3 [] [e1] [] [e1.name], [e1]⟩) ?_)
    (s' := ⟨updateRing bkdr 3 (updateRing bkdr 3 [] [e1] [] [e1.name]) [e1, e2] [] [e2.name], [e1, e2]⟩) ?_⟩
  · unfold Update
    rw [if_pos (by decide)]
    exact ⟨[], [e1.name], by simp, by simp, rfl⟩
  · unfold Update
    rw [if_pos (by decide)]
    refine ⟨[], [e2.name], by simp, ?_, rfl⟩
    intro n
    have : e2.name ≠ e1.name := by decide
    simp only [List.mem_singleton, List.map_cons, List.map_nil, List.mem_cons, List.not_mem_nil, or_false]
    constructor
    · rintro rfl; exact ⟨.inr rfl, this⟩
    · rintro ⟨rfl | rfl, h⟩
      · exact absurd rfl h
      · rfl

/-! ## C35: the endpoint returned belongs to the current list -/

/-- Two endpoints with different addresses but the same `host + port` string. -/
def twinA : Endpoint := ⟨"1.1.1.1".toList, 180, 0, 1, 0⟩
def twinB : Endpoint := ⟨"1.1.1.11".toList, 80, 0, 1, 0⟩

/-- **C35, refutation 1.**  Whatever the hash function and the number of virtual nodes: after an update to
`[A, B]` and then to `[A]`, every request is sent to `B`, which is not in the list any more. -/
theorem C35_removed_endpoint_served (H : List Char → UInt64) (K : Nat) (hK : 0 < K) :
    ∃ s, History H K [[twinA, twinB], [twinA]] s ∧
      ∀ hashKey h0 x, requestHash hashKey h0 = some x → s.next hashKey h0 = some (.ok twinB) ∧
        twinB ∉ [twinA] := by
  have hn : twinA.name = twinB.name := by decide
  have hlast : lastWith [twinA, twinB] twinB.name = some twinB := by decide
  have hup : updateRing H K [] [twinA, twinB] [] [twinB.name] = addName H K [] twinB.name twinB := by
    simp only [updateRing, List.foldl_nil, List.foldl_cons, hlast]
  refine ⟨⟨addName H K [] twinB.name twinB, [twinA]⟩, ?_, ?_⟩
  · refine .update (ls := [[twinA, twinB]]) (.update (ls := []) .start
      (s' := ⟨addName H K [] twinB.name twinB, [twinA, twinB]⟩) ?_) ?_
    · unfold Update
      rw [if_pos (by decide)]
      refine ⟨[], [twinB.name], by simp, ?_, ?_⟩
      · intro n; simp [hn]
      · rw [hup]
    · unfold Update
      rw [if_pos (by show infoDiff [twinA, twinB] [twinA] = true; decide)]
      refine ⟨[], [], ?_, ?_, rfl⟩ <;> (intro n; simp [hn])
  · intro hashKey h0 x hx
    refine ⟨?_, by decide⟩
    have hmem : (point H twinB.name 0, twinB) ∈ addName H K [] twinB.name twinB :=
      (mem_addName ..).2 (.inl ⟨0, hK, rfl⟩)
    have hne : addName H K [] twinB.name twinB ≠ [] := fun e => by rw [e] at hmem; simp at hmem
    obtain ⟨p, hp, hl, -⟩ := lookup_spec hne x
    have : p.2 = twinB := by
      rcases (mem_addName ..).1 hp with ⟨i, _, rfl⟩ | ⟨hp, _⟩
      · rfl
      · simp at hp
    unfold Infos.next
    have hlen : ¬ (addName H K [] twinB.name twinB).length < 1 := by
      have := List.length_pos_iff.2 hne; omega
    rw [if_neg hlen, hx]
    simp [hl, this]

/-- **C35, refutation 2.**  An update that only changes the status of an endpoint is recorded, yet requests keep
getting the old status. -/
theorem C35_stale_status (H : List Char → UInt64) (K : Nat) (hK : 0 < K) (e : Endpoint) (st : Int)
    (hst : e.status ≠ st) :
    ∃ s, History H K [[e], [{ e with status := st }]] s ∧ s.endpoints = [{ e with status := st }] ∧
      ∀ hashKey h0 x, requestHash hashKey h0 = some x → s.next hashKey h0 = some (.ok e) := by
  have hlast : lastWith [e] e.name = some e := by simp [lastWith]
  have hup : updateRing H K [] [e] [] [e.name] = addName H K [] e.name e := by
    simp only [updateRing, List.foldl_nil, List.foldl_cons, hlast]
  have hn : Endpoint.name { e with status := st } = e.name := rfl
  refine ⟨⟨addName H K [] e.name e, [{ e with status := st }]⟩, ?_, rfl, ?_⟩
  · refine .update (ls := [[e]]) (.update (ls := []) .start (s' := ⟨addName H K [] e.name e, [e]⟩) ?_) ?_
    · unfold Update
      rw [if_pos (by simp [infoDiff])]
      exact ⟨[], [e.name], by simp, by simp, by rw [hup]⟩
    · unfold Update
      rw [if_pos (by simp [infoDiff, hst])]
      refine ⟨[], [], ?_, ?_, rfl⟩ <;> (intro n; simp [hn])
  · intro hashKey h0 x hx
    have hmem : (point H e.name 0, e) ∈ addName H K [] e.name e := (mem_addName ..).2 (.inl ⟨0, hK, rfl⟩)
    have hne : addName H K [] e.name e ≠ [] := fun e' => by rw [e'] at hmem; simp at hmem
    obtain ⟨p, hp, hl, -⟩ := lookup_spec hne x
    have : p.2 = e := by
      rcases (mem_addName ..).1 hp with ⟨i, _, rfl⟩ | ⟨hp, _⟩
      · rfl
      · simp at hp
    unfold Infos.next
    have hlen : ¬ (addName H K [] e.name e).length < 1 := by
      have := List.length_pos_iff.2 hne; omega
    rw [if_neg hlen, hx]
    simp [hl, this]

/-- **C35, what holds.**  Without any assumption on the hash function or the names, every request gets an endpoint
that was in some list of the history. -/
theorem C35_known_endpoint_partial (H : List Char → UInt64) (K : Nat) (ls : List (List Endpoint)) (s : Infos)
    (h : History H K ls s) (hashKey : List Char) (h0 : UInt64) (e : Endpoint)
    (hs : s.next hashKey h0 = some (.ok e)) : e ∈ ls.flatten := by
  have inv : ∀ p ∈ s.ring, p.2 ∈ ls.flatten := by
    clear hs
    induction h with
    | start => simp
    | @update ls s new s' _ hu ih =>
      have hflat : (ls ++ [new]).flatten = ls.flatten ++ new := by simp
      rw [hflat]
      unfold Update at hu
      by_cases hd : infoDiff s.endpoints new = true
      · rw [if_pos hd] at hu
        obtain ⟨rem, add, _, _, rfl⟩ := hu
        have g1 : ∀ (rem : List (List Char)) (r : Ring), (∀ p ∈ r, p.2 ∈ ls.flatten ++ new) →
            ∀ p ∈ rem.foldl (removeName H K) r, p.2 ∈ ls.flatten ++ new := by
          intro rem
          induction rem with
          | nil => intro r hr; exact hr
          | cons n rem ih =>
            intro r hr
            exact ih _ (fun p hp => hr p ((mem_removeName ..).1 hp).1)
        have g2 : ∀ (add : List (List Char)) (r : Ring), (∀ p ∈ r, p.2 ∈ ls.flatten ++ new) →
            ∀ p ∈ add.foldl (fun r n => match lastWith new n with | some e => addName H K r n e | none => r) r,
              p.2 ∈ ls.flatten ++ new := by
          intro add
          induction add with
          | nil => intro r hr; exact hr
          | cons n add ih =>
            intro r hr
            refine ih _ ?_
            intro p hp
            cases hl : lastWith new n with
            | none => simp only [hl] at hp; exact hr p hp
            | some e =>
              simp only [hl] at hp
              rcases (mem_addName ..).1 hp with ⟨i, _, rfl⟩ | ⟨hp, _⟩
              · refine List.mem_append_right _ ?_
                have := List.mem_of_find?_eq_some hl
                simpa using this
              · exact hr p hp
        exact g2 add _ (g1 rem _ (fun p hp => List.mem_append_left _ (ih p hp)))
      · rw [if_neg hd] at hu
        subst hu
        exact fun p hp => List.mem_append_left _ (ih p hp)
  unfold Infos.next at hs
  by_cases hl : s.ring.length < 1
  · rw [if_pos hl] at hs; simp at hs
  · rw [if_neg hl] at hs
    cases hx : requestHash hashKey h0 with
    | none => rw [hx] at hs; simp at hs
    | some x =>
      rw [hx] at hs
      obtain ⟨p, hp, hlk, -⟩ := lookup_spec (r := s.ring) (fun e => hl (by simp [e])) x
      simp [hlk] at hs
      exact hs ▸ inv p hp

/-! ## C36: the choice does not depend on the update history -/

def pA : Endpoint := ⟨"h".toList, 808, 0, 1, 0⟩
def pB : Endpoint := ⟨"h".toList, 8081, 0, 1, 0⟩
def pC : Endpoint := ⟨"h".toList, 809, 0, 1, 0⟩

/-- **C36, refutation.**  With the `bkdr` hash and 20 virtual nodes (the default number): `A` = h:808 and
`B` = h:8081 have distinct names but share virtual nodes (`"808"+"10" = "8081"+"0"`).  Removing `A` deletes nodes
of `B`; afterwards a request goes to `C`, whereas the same list supplied from scratch sends it to `B`.  The
sharing holds for every hash function (`C36_shared_points`); `bkdr` is used to exhibit a request that moves. -/
theorem C36_history_matters :
    ∃ s t, History bkdr 20 [[pA, pB, pC], [pB, pC]] s ∧ History bkdr 20 [[pB, pC]] t ∧
      s.next [] (bkdr "h80810".toList) = some (.ok pC) ∧ t.next [] (bkdr "h80810".toList) = some (.ok pB) ∧
      Faithful [pA, pB, pC] := by
  let r0 := updateRing bkdr 20 [] [pA, pB, pC] [] [pA.name, pB.name, pC.name]
  refine ⟨⟨updateRing bkdr 20 r0 [pB, pC] [pA.name] [], [pB, pC]⟩,
    ⟨updateRing bkdr 20 [] [pB, pC] [] [pB.name, pC.name], [pB, pC]⟩, ?_, ?_, ?_, ?_, ?_⟩
  · refine .update (ls := [[pA, pB, pC]]) (.update (ls := []) .start (s' := ⟨r0, [pA, pB, pC]⟩) ?_) ?_
    · unfold Update
      rw [if_pos (by decide)]
      exact ⟨[], [pA.name, pB.name, pC.name], by simp, by simp, rfl⟩
    · unfold Update
      rw [if_pos (by show infoDiff [pA, pB, pC] [pB, pC] = true; decide)]
      refine ⟨[pA.name], [], ?_, ?_, rfl⟩
      · have h1 : pA.name ≠ pB.name := by decide
        have h2 : pA.name ≠ pC.name := by decide
        intro n
        simp only [List.map_cons, List.map_nil, List.mem_cons, List.not_mem_nil, or_false]
        constructor
        · rintro rfl; exact ⟨.inl rfl, by simp [h1, h2]⟩
        · rintro ⟨rfl | h, h'⟩
          · rfl
          · exact absurd h h'
      · intro n
        simp only [List.not_mem_nil, List.map_cons, List.map_nil, List.mem_cons, or_false, false_iff, not_and,
          not_or]
        intro h _ h2
        exact fun hc => hc (h.resolve_left h2)
  · refine .update (ls := []) .start ?_
    unfold Update
    rw [if_pos (by decide)]
    exact ⟨[], [pB.name, pC.name], by simp, by simp, rfl⟩
  · decide +kernel
  · decide +kernel
  · unfold Faithful; decide

/-- The sharing of virtual nodes behind it, for every hash function: h:808 and h:8081 share ten of the default
twenty virtual nodes. -/
theorem C36_shared_points (H : List Char → UInt64) (i : Nat) (hi : i < 10) :
    point H pA.name (10 + i) = point H pB.name i := by
  unfold point
  congr 1
  rcases (by omega : i = 0 ∨ i = 1 ∨ i = 2 ∨ i = 3 ∨ i = 4 ∨ i = 5 ∨ i = 6 ∨ i = 7 ∨ i = 8 ∨ i = 9) with
    rfl | rfl | rfl | rfl | rfl | rfl | rfl | rfl | rfl | rfl <;> decide

/-! ## C29: modulo hashing -/

/-- **C29.**  For a non-empty list, a request with hash `x` gets endpoint `x mod n` of the list (with unsigned
64-bit `x`): in particular an endpoint of the list, the same one for the same request. -/
theorem C29_modulo_in_list (eps : List Endpoint) (hne : eps ≠ []) (hashKey : List Char) (h0 x : UInt64)
    (hx : requestHash hashKey h0 = some x) :
    ∃ hi : x.toNat % eps.length < eps.length,
      moduloNext eps hashKey h0 = some (.ok eps[x.toNat % eps.length]) := by
  have hpos := List.length_pos_iff.2 hne
  have hi := Nat.mod_lt x.toNat hpos
  refine ⟨hi, ?_⟩
  unfold moduloNext
  rw [if_neg (by omega), hx]
  simp [at', hi]

/-- Decimal text of a number, most significant digit first (specification of a hash key). -/
def Decimal (x : Nat) (s : List Char) : Prop :=
  s ≠ [] ∧ (∀ c ∈ s, '0' ≤ c ∧ c ≤ '9') ∧ s.foldl (fun a c => a * 10 + (c.toNat - 48)) 0 = x

/-- **C29, hash keys.**  A hash key that is the decimal text of a 64-bit number is used as that number. -/
theorem C29_decimal_key (s : List Char) (x : UInt64) (hs : Decimal x.toNat s) (h0 : UInt64) :
    requestHash s h0 = some x := by
  obtain ⟨hne, hd, hv⟩ := hs
  have hdig : ∀ (s : List Char) (a : Nat), (∀ c ∈ s, '0' ≤ c ∧ c ≤ '9') →
      digits a s = s.foldl (fun a c => a * 10 + (c.toNat - 48)) a := by
    intro s
    induction s with
    | nil => intro a _; rfl
    | cons c s ih =>
      intro a h
      simp only [digits, h c (by simp), and_self, if_true, List.foldl_cons]
      exact ih _ (fun c hc => h c (by simp [hc]))
  unfold requestHash
  rw [if_pos hne]
  cases s with
  | nil => exact absurd rfl hne
  | cons c s =>
    have hc := hd c (by simp)
    have hsp : isSpace c = false := by
      simp only [isSpace, Bool.or_eq_false_iff, beq_eq_false_iff_ne]
      refine ⟨⟨⟨⟨⟨?_, ?_⟩, ?_⟩, ?_⟩, ?_⟩, ?_⟩ <;> (rintro rfl; revert hc; decide)
    have hm : c ≠ '-' := by rintro rfl; revert hc; decide
    have hp : c ≠ '+' := by rintro rfl; revert hc; decide
    have hlt := x.toNat_lt
    have : unsignedPart (c :: s) = some x := by
      unfold unsignedPart
      rw [hdig (c :: s) 0 hd, hv, if_pos (by simp [startsWithDigit, hc]), if_pos hlt]
      congr 1
      exact UInt64.toNat_inj.1 (by simp)
    unfold stoull
    rw [List.dropWhile_cons_of_neg (by simp [hsp])]
    split
    · rename_i h; injection h with h _; exact absurd h hm
    · rename_i h; injection h with h _; exact absurd h hp
    · exact this

/-- **C29, coverage.**  Every endpoint of a list of less than 2⁶⁴ is selected for some hash value. -/
theorem C29_every_endpoint_reachable (eps : List Endpoint) (hlen : eps.length < 2 ^ 64) (i : Nat)
    (hi : i < eps.length) : moduloNext eps [] (UInt64.ofNat i) = some (.ok eps[i]) := by
  obtain ⟨h1, h2⟩ := C29_modulo_in_list eps (fun e => by simp [e] at hi) [] (UInt64.ofNat i) (UInt64.ofNat i)
    (by simp [requestHash])
  rw [h2]
  have : (UInt64.ofNat i).toNat % eps.length = i := by
    rw [UInt64.toNat_ofNat_of_lt' (by have : UInt64.size = 2 ^ 64 := rfl; omega)]
    exact Nat.mod_eq_of_lt hi
  simp only [this]

/-- Outside the quantifier of C29: a hash key that does not begin with a number (after white space and sign)
raises an exception that `Next` does not catch.  Stated for keys beginning with a letter. -/
theorem C29_non_numeric_key_throws (c : Char) (s : List Char) (hc : 'a' ≤ c) (eps : List Endpoint) (hne : eps ≠ [])
    (h0 : UInt64) : moduloNext eps (c :: s) h0 = none := by
  have hc' : 97 ≤ c.toNat := by
    have := Char.le_def.1 hc
    exact UInt32.le_iff_toNat_le.1 this
  have hne0 : ∀ d : Char, d.toNat < 97 → c ≠ d := by rintro d hd rfl; omega
  have hsp : isSpace c = false := by
    simp only [isSpace, Bool.or_eq_false_iff, beq_eq_false_iff_ne]
    refine ⟨⟨⟨⟨⟨?_, ?_⟩, ?_⟩, ?_⟩, ?_⟩, ?_⟩ <;> exact hne0 _ (by decide)
  have hu : unsignedPart (c :: s) = none := by
    unfold unsignedPart
    have : ¬ c ≤ '9' := by
      intro h
      have := UInt32.le_iff_toNat_le.1 (Char.le_def.1 h)
      have h9 : '9'.val.toNat = 57 := by decide
      have : c.val.toNat = c.toNat := rfl
      omega
    rw [if_neg (by simp [startsWithDigit, this])]
  have : stoull (c :: s) = none := by
    unfold stoull
    rw [List.dropWhile_cons_of_neg (by simp [hsp])]
    split
    · rename_i h; injection h with h _; exact absurd h (hne0 _ (by decide))
    · rename_i h; injection h with h _; exact absurd h (hne0 _ (by decide))
    · exact hu
  unfold moduloNext requestHash
  rw [if_neg (by have := List.length_pos_iff.2 hne; omega), if_pos (by simp), this]
  rfl

example : Decimal (42 : UInt64).toNat "42".toList := by
  refine ⟨by decide, by decide, by decide⟩

example : moduloNext [e1, e2] "3".toList 0 = some (.ok e2) := by decide

end Verif.LB.Hash
