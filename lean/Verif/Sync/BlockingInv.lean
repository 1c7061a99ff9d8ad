import Verif.Sync.Blocking

/-! Invariants of the blocking buffer. -/

namespace Verif.Sync.Blocking

/-- Has the lock. -/
def fLk : Pc → Nat
  | .al .. | .as .. | .axl .. | .vl .. | .vs .. | .cl .. | .cs .. | .cxl .. | .s1 => 1
  | _ => 0

/-- Is about to notify `not_full_`. -/
def fNF : Pc → Nat
  | .cn | .kn | .s2 => 1
  | _ => 0

/-- Is about to notify `not_empty_`. -/
def fNE : Pc → Nat
  | .an .. | .s2 | .s3 => 1
  | _ => 0

def going : Pc → Bool
  | .as .. | .vs .. | .cs .. => true
  | _ => false

def zA : Pc → Bool
  | .az .. | .vz .. => true
  | _ => false

def zC : Pc → Bool
  | .cz .. => true
  | _ => false

/-- What it waits for. -/
def cond (len cap : Nat) (stop : Bool) : Pc → Bool
  | .as x _ | .az x _ => x.length + len ≤ cap || stop
  | .vs _ | .vz _ => len < cap
  | .cs n _ | .cz n _ => n ≤ len || stop
  | _ => false

structure W (len cap : Nat) (stop lk : Bool) (l : List Pc) : Prop where
  lk : wsum fLk l = lk.toNat
  a : wsum fA l ≤ 1
  c : wsum fC l ≤ 1
  go : ∀ (j : Nat) (p : Pc), l[j]? = some p → going p = true → cond len cap stop p = false
  za : ∀ (j : Nat) (p : Pc), l[j]? = some p → zA p = true → cond len cap stop p = true → 0 < wsum fNF l
  zc : ∀ (j : Nat) (p : Pc), l[j]? = some p → zC p = true → cond len cap stop p = true → 0 < wsum fNE l

theorem get_set {l : List Pc} {i : Nat} {b : Pc} {j : Nat} {p : Pc} (h : (l.set i b)[j]? = some p) : (j = i ∧ p = b) ∨ (j ≠ i ∧ l[j]? = some p) := by
  by_cases hj : i = j
  · subst hj
    rw [List.getElem?_set] at h
    simp at h
    exact .inl ⟨rfl, h.2.symm⟩
  · rw [List.getElem?_set_ne hj] at h
    exact .inr ⟨fun e => hj e.symm, h⟩

theorem going_lk {p : Pc} (h : going p = true) : fLk p = 1 := by cases p <;> simp_all [going, fLk]

theorem W.set {len cap : Nat} {stop lk : Bool} {l : List Pc} (w : W len cap stop lk l) {i : Nat} {a b : Pc} (h : l[i]? = some a) (len' : Nat) (stop' lk' : Bool)
    (hlk : fLk b + lk.toNat = fLk a + lk'.toNat)
    (hgo : (len' = len ∧ stop' = stop) ∨ fLk a = 1)
    (hA : ((∀ p, zA p = true → cond len' cap stop' p = true → cond len cap stop p = true) ∧ fNF a ≤ fNF b) ∨ fNF b = 1)
    (hC : ((∀ p, zC p = true → cond len' cap stop' p = true → cond len cap stop p = true) ∧ fNE a ≤ fNE b) ∨ fNE b = 1)
    (hb : going b = true ∨ zA b = true ∨ zC b = true → cond len' cap stop' b = false)
    (hfa : fA b ≤ fA a ∨ wsum fA l = 0) (hfc : fC b ≤ fC a ∨ wsum fC l = 0) : W len' cap stop' lk' (l.set i b) := by
  have e1 := wsum_set (f := fLk) (b := b) h
  have e2 := wsum_set (f := fA) (b := b) h
  have e3 := wsum_set (f := fC) (b := b) h
  have e4 := wsum_set (f := fNF) (b := b) h
  have e5 := wsum_set (f := fNE) (b := b) h
  have wlk := w.lk
  have wa := w.a
  have wc := w.c
  have ba : fA b ≤ 1 := by cases b <;> simp [fA]
  have bc : fC b ≤ 1 := by cases b <;> simp [fC]
  refine ⟨by omega, by omega, by omega, ?_, ?_, ?_⟩
  · intro j p hp hg
    rcases get_set hp with ⟨rfl, rfl⟩ | ⟨hj, hp⟩
    · exact hb (.inl hg)
    · rcases hgo with ⟨rfl, rfl⟩ | hgo
      · exact w.go j p hp hg
      · have := wsum_two (f := fLk) hp h hj
        have := going_lk hg
        have : lk.toNat ≤ 1 := by cases lk <;> simp
        omega
  · intro j p hp hg hc
    rcases get_set hp with ⟨rfl, rfl⟩ | ⟨hj, hp⟩
    · rw [hb (.inr (.inl hg))] at hc; cases hc
    · rcases hA with ⟨hA, hn⟩ | hn
      · have := w.za j p hp hg (hA p hg hc)
        omega
      · have := wsum_mem (f := fNF) (l := l.set i b) (i := i) (a := b) (by
          rw [List.getElem?_set]; simp; exact (List.getElem?_eq_some_iff.1 h).1)
        omega
  · intro j p hp hg hc
    rcases get_set hp with ⟨rfl, rfl⟩ | ⟨hj, hp⟩
    · rw [hb (.inr (.inr hg))] at hc; cases hc
    · rcases hC with ⟨hC, hn⟩ | hn
      · have := w.zc j p hp hg (hC p hg hc)
        omega
      · have := wsum_mem (f := fNE) (l := l.set i b) (i := i) (a := b) (by
          rw [List.getElem?_set]; simp; exact (List.getElem?_eq_some_iff.1 h).1)
        omega

theorem wakeA_some {p q : Pc} (h : wakeA p = some q) : zA p = true ∧ going q = false ∧ zA q = false ∧ zC q = false ∧ fLk p = 0 ∧ fLk q = 0 ∧ fA p = 1 ∧ fA q = 1 ∧ fC p = 0 ∧ fC q = 0 ∧
    fNF p = 0 ∧ fNF q = 0 ∧ fNE p = 0 ∧ fNE q = 0 := by
  cases p <;> simp [wakeA] at h <;> subst h <;> simp [zA, zC, going, fLk, fA, fC, fNF, fNE]

theorem wakeC_some {p q : Pc} (h : wakeC p = some q) : zC p = true ∧ going q = false ∧ zA q = false ∧ zC q = false ∧ fLk p = 0 ∧ fLk q = 0 ∧ fA p = 0 ∧ fA q = 0 ∧ fC p = 1 ∧ fC q = 1 ∧
    fNF p = 0 ∧ fNF q = 0 ∧ fNE p = 0 ∧ fNE q = 0 := by
  cases p <;> simp [wakeC] at h <;> subst h <;> simp [zA, zC, going, fLk, fA, fC, fNF, fNE]

theorem zA_fA {p : Pc} (h : zA p = true) : fA p = 1 := by cases p <;> simp_all [zA, fA]
theorem zC_fC {p : Pc} (h : zC p = true) : fC p = 1 := by cases p <;> simp_all [zC, fC]
theorem zA_wake {p : Pc} (h : zA p = true) : wakeA p ≠ none := by cases p <;> simp_all [zA, wakeA]
theorem zC_wake {p : Pc} (h : zC p = true) : wakeC p ≠ none := by cases p <;> simp_all [zC, wakeC]

theorem W.notifyA {len cap : Nat} {stop lk : Bool} {l l' : List Pc} (w : W len cap stop lk l) {i : Nat} {a b : Pc} (h : l[i]? = some a) (hn : Notify wakeA (l.set i b) l')
    (ha : fLk a = 0 ∧ fLk b = 0 ∧ fA b ≤ fA a ∧ fC b ≤ fC a ∧ fNE a ≤ fNE b ∧ going b = false ∧ zA b = false ∧ zC b = false) : W len cap stop lk l' := by
  obtain ⟨h1, h2, h3, h4, h5, h6, h7, h8⟩ := ha
  have e1 := wsum_set (f := fLk) (b := b) h
  have e2 := wsum_set (f := fA) (b := b) h
  have e3 := wsum_set (f := fC) (b := b) h
  have e5 := wsum_set (f := fNE) (b := b) h
  have wlk := w.lk
  have wa := w.a
  have wc := w.c
  cases hn with
  | one j p q hj hw =>
    obtain ⟨p1, p2, p3, p4, p5, p6, p7, p8, p9, p10, p11, p12, p13, p14⟩ := wakeA_some hw
    have d1 := wsum_set (f := fLk) (b := q) hj
    have d2 := wsum_set (f := fA) (b := q) hj
    have d3 := wsum_set (f := fC) (b := q) hj
    have d5 := wsum_set (f := fNE) (b := q) hj
    refine ⟨by omega, by omega, by omega, ?_, ?_, ?_⟩
    · intro j' p' hp' hg
      rcases get_set hp' with ⟨rfl, rfl⟩ | ⟨hj', hp'⟩
      · rw [p2] at hg; cases hg
      · rcases get_set hp' with ⟨rfl, rfl⟩ | ⟨hi, hp'⟩
        · rw [h6] at hg; cases hg
        · exact w.go _ _ hp' hg
    · intro j' p' hp' hg hc
      rcases get_set hp' with ⟨rfl, rfl⟩ | ⟨hj', hp'⟩
      · rw [p3] at hg; cases hg
      · have := wsum_two (f := fA) hp' hj hj'
        have := zA_fA hg
        omega
    · intro j' p' hp' hg hc
      rcases get_set hp' with ⟨rfl, rfl⟩ | ⟨hj', hp'⟩
      · rw [p4] at hg; cases hg
      · rcases get_set hp' with ⟨rfl, rfl⟩ | ⟨hi, hp'⟩
        · rw [h8] at hg; cases hg
        · have := w.zc _ _ hp' hg hc
          omega
  | none hnone =>
    refine ⟨by omega, by omega, by omega, ?_, ?_, ?_⟩
    · intro j' p' hp' hg
      rcases get_set hp' with ⟨rfl, rfl⟩ | ⟨hi, hp'⟩
      · rw [h6] at hg; cases hg
      · exact w.go _ _ hp' hg
    · intro j' p' hp' hg hc
      exact absurd (hnone j' p' hp') (zA_wake hg)
    · intro j' p' hp' hg hc
      rcases get_set hp' with ⟨rfl, rfl⟩ | ⟨hi, hp'⟩
      · rw [h8] at hg; cases hg
      · have := w.zc _ _ hp' hg hc
        omega

theorem W.notifyC {len cap : Nat} {stop lk : Bool} {l l' : List Pc} (w : W len cap stop lk l) {i : Nat} {a b : Pc} (h : l[i]? = some a) (hn : Notify wakeC (l.set i b) l')
    (ha : fLk a = 0 ∧ fLk b = 0 ∧ fA b ≤ fA a ∧ fC b ≤ fC a ∧ fNF a ≤ fNF b ∧ going b = false ∧ zA b = false ∧ zC b = false) : W len cap stop lk l' := by
  obtain ⟨h1, h2, h3, h4, h5, h6, h7, h8⟩ := ha
  have e1 := wsum_set (f := fLk) (b := b) h
  have e2 := wsum_set (f := fA) (b := b) h
  have e3 := wsum_set (f := fC) (b := b) h
  have e5 := wsum_set (f := fNF) (b := b) h
  have wlk := w.lk
  have wa := w.a
  have wc := w.c
  cases hn with
  | one j p q hj hw =>
    obtain ⟨p1, p2, p3, p4, p5, p6, p7, p8, p9, p10, p11, p12, p13, p14⟩ := wakeC_some hw
    have d1 := wsum_set (f := fLk) (b := q) hj
    have d2 := wsum_set (f := fA) (b := q) hj
    have d3 := wsum_set (f := fC) (b := q) hj
    have d5 := wsum_set (f := fNF) (b := q) hj
    refine ⟨by omega, by omega, by omega, ?_, ?_, ?_⟩
    · intro j' p' hp' hg
      rcases get_set hp' with ⟨rfl, rfl⟩ | ⟨hj', hp'⟩
      · rw [p2] at hg; cases hg
      · rcases get_set hp' with ⟨rfl, rfl⟩ | ⟨hi, hp'⟩
        · rw [h6] at hg; cases hg
        · exact w.go _ _ hp' hg
    · intro j' p' hp' hg hc
      rcases get_set hp' with ⟨rfl, rfl⟩ | ⟨hj', hp'⟩
      · rw [p3] at hg; cases hg
      · rcases get_set hp' with ⟨rfl, rfl⟩ | ⟨hi, hp'⟩
        · rw [h7] at hg; cases hg
        · have := w.za _ _ hp' hg hc
          omega
    · intro j' p' hp' hg hc
      rcases get_set hp' with ⟨rfl, rfl⟩ | ⟨hj', hp'⟩
      · rw [p4] at hg; cases hg
      · have := wsum_two (f := fC) hp' hj hj'
        have := zC_fC hg
        omega
  | none hnone =>
    refine ⟨by omega, by omega, by omega, ?_, ?_, ?_⟩
    · intro j' p' hp' hg
      rcases get_set hp' with ⟨rfl, rfl⟩ | ⟨hi, hp'⟩
      · rw [h6] at hg; cases hg
      · exact w.go _ _ hp' hg
    · intro j' p' hp' hg hc
      rcases get_set hp' with ⟨rfl, rfl⟩ | ⟨hi, hp'⟩
      · rw [h7] at hg; cases hg
      · have := w.za _ _ hp' hg hc
        omega
    · intro j' p' hp' hg hc
      exact absurd (hnone j' p' hp') (zC_wake hg)

/-- The invariant of the use by one appender and one cutter. -/
def S.WI (s : S) : Prop := W s.content.length s.cap s.stop s.lk s.pc

theorem WI.call {s s' : S} (w : s.WI) (h : Call true s s') : s'.WI := by
  unfold S.WI at w ⊢
  cases h with
  | setCap i c h h1 => cases h1
  | append i x t h h1 | tryAppend i x h h1 | appendAlways i x hx h h1 | cut i n t h h1 | tryCut i n h h1 | stop i h =>
    refine w.set h _ _ _ ?_ (.inl ⟨rfl, rfl⟩) (.inl ⟨fun _ _ h => h, by simp [fNF]⟩) (.inl ⟨fun _ _ h => h, by simp [fNE]⟩) (by simp [going, zA, zC]) ?_ ?_
    all_goals (try simp only [forall_const] at h1) <;> simp [fLk, fA, fC, S.at] <;> first | grind | skip

theorem WI.timeout {s s' : S} (w : s.WI) (h : Timeout s s') : s'.WI := by
  unfold S.WI at w ⊢
  cases h with
  | append i x h | cut i n h =>
    refine w.set h _ _ _ ?_ (.inl ⟨rfl, rfl⟩) (.inl ⟨fun _ _ h => h, by simp [fNF]⟩) (.inl ⟨fun _ _ h => h, by simp [fNE]⟩) (by simp [going, zA, zC]) ?_ ?_
    all_goals simp [fLk, fA, fC, S.at]

theorem W.locked {len cap : Nat} {stop lk : Bool} {l : List Pc} (w : W len cap stop lk l) {i : Nat} {a : Pc} (h : l[i]? = some a) (ha : fLk a = 1) : lk = true := by
  have := wsum_mem (f := fLk) h
  have := w.lk
  cases lk with
  | true => rfl
  | false => simp at *; omega

theorem cond_more {len cap : Nat} {stop : Bool} (k : Nat) (p : Pc) (hp : zA p = true) (h : cond (len + k) cap stop p = true) : cond len cap stop p = true := by
  cases p <;> simp [zA] at hp <;> simp [cond] at h ⊢ <;> grind

theorem cond_less {len cap : Nat} {stop : Bool} (k : Nat) (p : Pc) (hp : zC p = true) (h : cond (len - k) cap stop p = true) : cond len cap stop p = true := by
  cases p <;> simp [zC] at hp <;> simp [cond] at h ⊢ <;> grind

set_option hygiene false in
local macro "simple" : tactic => `(tactic| (
  refine w.set h _ _ _ ?_ (.inl ⟨rfl, rfl⟩) (.inl ⟨fun _ _ h => h, by simp [fNF]⟩) (.inl ⟨fun _ _ h => h, by simp [fNE]⟩) ?_ (.inl (by simp [fA])) (.inl (by simp [fC]))))

theorem WI.step {s s' : S} (w : s.WI) (h : Step s s') : s'.WI := by
  unfold S.WI at w ⊢
  cases h with
  | aq i x t h hl | ax i x h hl | vq i x h hl | cq i n t h hl | cx i n h hl | s0 i h hl =>
    simple
    · simp [fLk, S.at, hl]
    · simp [going, zA, zC]
  | as i x t h | vs i x h | cs i n t h =>
    have hg := w.go _ _ h rfl
    have hk := w.locked h rfl
    simple
    · simp [fLk, S.at, hk]
    · intro _; exact hg
  | al i x t h | axl i x h | vl i x h =>
    have hk := w.locked h rfl
    split
    · refine w.set h _ _ _ ?_ (.inr rfl) (.inl ⟨?_, by simp [fNF]⟩) (.inr rfl) (by simp [going, zA, zC]) (.inl (by simp [fA])) (.inl (by simp [fC]))
      · simp [fLk, S.at, S.add, hk]
      · intro p hp hc
        simp only [S.at, S.add, List.length_append] at hc
        exact cond_more _ p hp hc
    · rename_i hc
      simple
      · simp [fLk, S.at, hk]
      · simp [going, zA, zC] <;> simp [cond, S.canAppend, S.at] at hc ⊢ <;> grind
  | cl i n t h =>
    have hk := w.locked h rfl
    split
    · split
      · refine w.set h _ _ _ ?_ (.inr rfl) (.inr rfl) (.inl ⟨?_, by simp [fNE]⟩) (by simp [going, zA, zC]) (.inl (by simp [fA])) (.inl (by simp [fC]))
        · simp [fLk, S.at, S.take, hk]
        · intro p hp hc
          simp only [S.at, S.take, List.length_drop] at hc
          exact cond_less _ p hp hc
      · refine w.set h _ _ _ ?_ (.inr rfl) (.inr rfl) (.inl ⟨?_, by simp [fNE]⟩) (by simp [going, zA, zC]) (.inl (by simp [fA])) (.inl (by simp [fC]))
        · simp [fLk, S.at, hk]
        · intro p hp hc
          exact hc
    · rename_i hc
      simple
      · simp [fLk, S.at, hk]
      · intro _; simp [cond, S.canCut, S.at] at hc ⊢; grind
  | cxl i n h =>
    have hk := w.locked h rfl
    split
    · refine w.set h _ _ _ ?_ (.inr rfl) (.inr rfl) (.inl ⟨?_, by simp [fNE]⟩) (by simp [going, zA, zC]) (.inl (by simp [fA])) (.inl (by simp [fC]))
      · simp [fLk, S.at, S.take, hk]
      · intro p hp hc
        simp only [S.at, S.take, List.length_drop] at hc
        exact cond_less _ p hp hc
    · simple
      · simp [fLk, S.at, hk]
      · simp [going, zA, zC]
  | an i x l h hn =>
    refine w.notifyC h hn ?_
    split <;> simp [fLk, fA, fC, fNF, going, zA, zC]
  | cn i l h hn | kn i l h hn | s2 i l h hn =>
    refine w.notifyA h hn ?_
    simp [fLk, fA, fC, fNE, going, zA, zC]
  | s3 i l h hn =>
    refine w.notifyC h hn ?_
    simp [fLk, fA, fC, fNF, going, zA, zC]
  | s1 i h =>
    have hk := w.locked h rfl
    refine w.set h _ _ _ ?_ (.inr rfl) (.inr rfl) (.inr rfl) (by simp [going, zA, zC]) (.inl (by simp [fA])) (.inl (by simp [fC]))
    simp [fLk, S.at, hk]

theorem WI.init (cap n : Nat) : (S.init cap n).WI := by
  have hz : ∀ f : Pc → Nat, f .idle = 0 → wsum f (List.replicate n Pc.idle) = 0 := by
    intro f hf
    simp [wsum_replicate, hf]
  have hi : ∀ (j : Nat) (p : Pc), (List.replicate n Pc.idle)[j]? = some p → p = .idle := by
    intro j p h
    simp [List.getElem?_replicate] at h
    exact h.2.symm
  refine ⟨hz _ rfl, by rw [show (S.init cap n).pc = List.replicate n .idle from rfl, hz _ rfl]; simp, by rw [show (S.init cap n).pc = List.replicate n .idle from rfl, hz _ rfl]; simp, ?_, ?_, ?_⟩ <;>
    intro j p hp hg <;> rw [hi j p hp] at hg <;> cases hg

theorem Reach.wi {cap n : Nat} {s : S} (h : Reach true cap n s) : s.WI := by
  induction h with
  | init => exact WI.init cap n
  | call _ hc ih => exact WI.call ih hc
  | timeout _ ht ih => exact WI.timeout ih ht
  | step _ hs ih => exact WI.step ih hs

end Verif.Sync.Blocking
