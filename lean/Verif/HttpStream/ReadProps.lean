import Verif.HttpStream.Read
import Verif.Sync.BlockingProps

/-!
# C118, C119: the body of a streamed request
-/

namespace Verif.HttpStream.Read

/-- Bytes that a read has taken and not yet returned. -/
def C.held : C → List Nat
  | .got x _ => x
  | _ => []

structure Inv (s : S) : Prop where
  bytes : s.put = s.rd ++ s.lost ++ s.c.held ++ s.content
  lost : s.lost ≠ [] → s.err = true
  e : s.e = true → s.err = true
  stop : s.stop = true → s.wend = true ∨ s.err = true ∨ s.user = true
  eofp : s.p = .eof → s.wend = true
  push : ∀ x, s.p = .push x → s.wend = false
  /-- a read that got less than it asked for saw the end -/
  got : ∀ x n, s.c = .got x n → x.length < n → s.err = true ∨ s.user = true ∨ (s.wend = true ∧ s.content = [])
  fin : s.eof = true → s.err = true ∨ s.user = true ∨ (s.wend = true ∧ s.content = [] ∧ s.c.held = [])
  oks : s.rd = (s.res.map fun r => match r with | .ok x => x | _ => []).flatten
  close : s.c = .close → s.user = true
  busy : ∀ n, s.c = .cut n ∨ (∃ x, s.c = .got x n) → s.eof = false ∨ s.user = true

theorem Reach.inv {cap : Nat} {s : S} (h : Reach cap s) : Inv s := by
  induction h with
  | init => exact ⟨rfl, by simp, by simp, by simp, by simp, by simp, by simp, by simp, rfl, by simp, by simp⟩
  | step _ hs v =>
    obtain ⟨h1, h2, h3, h4, h5, h6, h7, h8, h9, h10, h11⟩ := v
    cases hs with
    | write x h hs => constructor <;> grind
    | push b x h hc => constructor <;> grind
    | pushed h => constructor <;> grind
    | eof h hw => constructor <;> grind
    | eofStop h => constructor <;> grind
    | error h => constructor <;> grind
    | errorStop h => constructor <;> grind
    | close h => constructor <;> grind [C.held]
    | closeStop h => constructor <;> grind [C.held]
    | read n h =>
      split
      · constructor <;> simp_all
      · split
        · constructor <;> simp_all
        · constructor <;> simp_all [C.held]
    | cut n h hc =>
      have e1 : C.held (.cut n) = [] := rfl
      rw [h, e1] at h1
      constructor
      · simp [C.held, h1]
      · exact h2
      · exact h3
      · exact h4
      · exact h5
      · exact h6
      · intro x m hx hlt
        simp only [C.got.injEq] at hx
        obtain ⟨rfl, rfl⟩ := hx
        simp only [List.length_take] at hlt
        have hs : _ = true := hc.resolve_left (by omega)
        rcases h4 hs with hw | hw | hw
        · exact .inr (.inr ⟨hw, List.drop_eq_nil_of_le (by omega)⟩)
        · exact .inl hw
        · exact .inr (.inl hw)
      · intro he
        rcases h11 n (.inl h) with hb | hb
        · rw [hb] at he; cases he
        · exact .inr (.inl hb)
      · exact h9
      · intro hx; cases hx
      · intro m _
        exact h11 n (.inl h)
    | timeout n h => constructor <;> grind [C.held]
    | got x n h =>
      have e1 : C.held (.got x n) = x := rfl
      rw [h, e1] at h1
      split
      · constructor <;> simp_all [C.held]
      · rename_i herr
        have hl : _ = [] := Classical.byContradiction fun hl => herr (h2 hl)
        have hg := h7 x n h
        have hb := h11 n (.inr ⟨x, h⟩)
        constructor
        · simp [C.held, h1, hl]
        · exact h2
        · exact h3
        · exact h4
        · exact h5
        · exact h6
        · intro x' n' hx; cases hx
        · intro he
          simp only [Bool.or_eq_true, decide_eq_true_eq] at he
          rcases he with he | he
          · rcases hb with hb | hb
            · rw [hb] at he; cases he
            · exact .inr (.inl hb)
          · rcases hg he with hw | hw | hw
            · exact .inl hw
            · exact .inr (.inl hw)
            · exact .inr (.inr ⟨hw.1, hw.2, rfl⟩)
        · simp [h9]
        · intro hx; cases hx
        · intro m hx; rcases hx with hx | ⟨_, hx⟩ <;> cases hx

/-- **C118.** Successful reads return, in order, the first bytes that were received: none is lost between two of them, none comes twice. -/
theorem C118_prefix {cap : Nat} {s : S} (h : Reach cap s) : (s.res.map fun r => match r with | .ok x => x | _ => []).flatten <+: s.put := by
  have v := h.inv
  rw [← v.oks, v.bytes, List.append_assoc, List.append_assoc]
  exact List.prefix_append _ _

/-- **C118.** The end of the body is reported (by a read that returns less than asked for, which sets `eof`, or by `kStreamStatusReadEof`) only if all of it was received and returned, unless the connection broke or the
handler closed the stream. -/
theorem C118_end {cap : Nat} {s : S} (h : Reach cap s) (he : s.eof = true) (hn : s.err = false) (hu : s.user = false) :
    s.wend = true ∧ s.put = (s.res.map fun r => match r with | .ok x => x | _ => []).flatten := by
  have v := h.inv
  rcases v.fin he with hx | hx | ⟨h1, h2, h3⟩
  · rw [hn] at hx; cases hx
  · rw [hu] at hx; cases hx
  · refine ⟨h1, ?_⟩
    have hl : s.lost = [] := Classical.byContradiction fun hl => by have := v.lost hl; rw [hn] at this; cases this
    rw [← v.oks, v.bytes, hl, h2, h3]
    simp

/-- **C118.** If a read returns less than was asked for, the end is reported from then on. -/
theorem C118_short {s s' : S} (h : Step s s') {x : List Nat} {n : Nat} (hc : s.c = .got x n) (hr : s'.res = s.res ++ [.ok x]) (hl : x.length < n) : s'.eof = true := by
  cases h with
  | got y m h =>
    rw [hc] at h
    cases h
    split at hr
    · simp at hr
    · rename_i he
      simp [he, hl]
  | read m h => rw [hc] at h; cases h
  | close h => rfl
  | closeStop h => rw [hc] at h; cases h
  | timeout m h => rw [hc] at h; cases h
  | cut m h => rw [hc] at h; cases h
  | _ => simp at hr

/-- **C118.** After the connection broke no read succeeds and none reports the end. -/
theorem C118_broken {s s' : S} (h : Step s s') (he : s.err = true) (r : Res) (hr : s'.res = s.res ++ [r]) : r = .network ∨ r = .timeout := by
  cases h with
  | got y m h => simp [he] at hr; exact .inl hr.symm
  | read m h => simp [he] at hr; exact .inl hr.symm
  | timeout m h => simp at hr; exact .inr hr.symm
  | _ => simp at hr

/-- **C118.** `AppendToRequest` (http_stream.cc:63-80) reads `max + 1` bytes: it succeeds only with the whole body, of at most `max` bytes. -/
theorem C118_whole {cap max : Nat} {s s' : S} {x : List Nat} (h : Reach cap s) (hr : s.rd = []) (hs : Step s s') (hc : s.c = .got x (max + 1)) (ho : s'.res = s.res ++ [.ok x]) (he : s'.eof = true)
    (hn : s'.err = false) (hu : s'.user = false) : s'.put = x ∧ s'.wend = true ∧ (x.length ≤ max ∨ s.eof = true) := by
  have h' := h.step hs
  obtain ⟨h1, h2⟩ := C118_end h' he hn hu
  have v := h.inv
  cases hs with
  | got y m hm =>
    rw [hc] at hm
    cases hm
    split at ho
    · simp at ho
    · rename_i herr
      simp only [herr] at h1 h2 he ⊢
      simp only [Bool.false_eq_true, if_false] at h1 h2 he ⊢
      refine ⟨?_, h1, ?_⟩
      · rw [h2, List.map_append, List.flatten_append, ← v.oks, hr]; simp
      · simp at he
        rcases he with he | he
        · exact .inr he
        · exact .inl (by omega)
  | read m h => rw [hc] at h; cases h
  | close h => rw [hc] at h; cases h
  | closeStop h => rw [hc] at h; cases h
  | timeout m h => rw [hc] at h; cases h
  | cut m h => rw [hc] at h; cases h
  | _ => simp at ho

/-- A body of three bytes, read in two reads; the second returns less than it was asked for. -/
example : ∃ s, Reach 2 s ∧ s.res = [.ok [1, 2], .ok [3], .eof] ∧ s.put = [1, 2, 3] ∧ s.eof = true ∧ s.err = false ∧ s.user = false := by
  have h : Reach 2 _ := .init
  have h := h.step (.write [1, 2, 3] rfl ⟨rfl, rfl, rfl⟩)
  have h := h.step (.push 1 [2, 3] rfl (by simp))
  have h := h.step (.push 2 [3] rfl (by simp))
  have h := h.step (.read 2 rfl)
  have h := h.step (.cut 2 rfl (.inl (by simp)))
  have h := h.step (.got [1, 2] 2 rfl)
  have h := h.step (.push 3 [] rfl (by simp))
  have h := h.step (.pushed rfl)
  have h := h.step (.eof rfl rfl)
  have h := h.step (.eofStop rfl)
  have h := h.step (.read 2 rfl)
  have h := h.step (.cut 2 rfl (.inr rfl))
  have h := h.step (.got [3] 2 rfl)
  have h := h.step (.read 2 rfl)
  exact ⟨_, h, rfl, rfl, rfl, rfl, rfl⟩

end Verif.HttpStream.Read

/-! ## C119 -/

namespace Verif.Sync.Blocking

/-- The runs of a request whose body `x` comes in one piece: fiber 0 reads the connection and appends it, fiber 1 handles the request (`AppendToRequest`: `Cut` of one byte more than the capacity, with a time-out), and closes the
stream when that has failed, any number of times (http_service.cc:43-47, :66, :150). -/
inductive Big (cap : Nat) (x : List Nat) : S → Prop
  | init : Big cap x ⟨[], cap, false, false, [.vq x, .cq (cap + 1) true], [], []⟩
  | step {s s' : S} (h : Big cap x s) (hs : Step s s') : Big cap x s'
  | timeout {s s' : S} (h : Big cap x s) (ht : Timeout s s') : Big cap x s'
  | close {s : S} (h : Big cap x s) (hi : s.pc[1]? = some .idle) : Big cap x (s.at 1 .s0)

/-- What fiber 0 has still to append. -/
def rest : Pc → Option (List Nat)
  | .vq r | .vl r | .vs r | .vz r | .an r => some r
  | _ => none

/-- Fiber 1 cuts (the stream is open then), or closes. -/
def cutter (k : Nat) (stop : Bool) : Pc → Prop
  | .cq n t | .cl n t | .cs n t | .cz n t => n = k ∧ t = true ∧ stop = false
  | .cx n | .cxl n => n = k ∧ stop = false
  | .idle | .s0 | .s1 | .s2 | .s3 => True
  | _ => False

structure BInv (cap : Nat) (x : List Nat) (s : S) : Prop where
  pcs : ∃ a b r, s.pc = [a, b] ∧ rest a = some r ∧ s.content ++ r = x ∧ cutter (cap + 1) s.stop b
  hcap : s.cap = cap
  got : s.got = []
  len : s.content.length ≤ cap

theorem two {a b p : Pc} {i : Nat} (h : [a, b][i]? = some p) : (i = 0 ∧ p = a) ∨ (i = 1 ∧ p = b) := by
  match i, h with
  | 0, h => exact .inl ⟨rfl, by simpa using h.symm⟩
  | 1, h => exact .inr ⟨rfl, by simpa using h.symm⟩
  | i + 2, h => simp at h

theorem BInv.put {cap : Nat} {x : List Nat} {s s' : S} (v : BInv cap x s) {i : Nat} {p q : Pc} (h : s.pc[i]? = some p) (e : s'.pc = s.pc.set i q) (e1 : s'.content = s.content) (e2 : s'.cap = s.cap) (e3 : s'.got = s.got)
    (e4 : s'.stop = s.stop) (hr : ∀ r, rest p = some r → rest q = some r) (hc : cutter (cap + 1) s.stop p → cutter (cap + 1) s.stop q) : BInv cap x s' := by
  obtain ⟨⟨a, b, r, h1, h2, h3, h4⟩, h5, h6, h7⟩ := v
  rw [h1] at h e
  refine ⟨?_, e2.trans h5, e3.trans h6, by rw [e1]; exact h7⟩
  rcases two h with ⟨rfl, rfl⟩ | ⟨rfl, rfl⟩
  · exact ⟨q, b, r, e, hr r h2, by rw [e1]; exact h3, by rw [e4]; exact h4⟩
  · exact ⟨a, q, r, e, h2, by rw [e1]; exact h3, by rw [e4]; exact hc h4⟩

theorem BInv.notify {cap : Nat} {x : List Nat} {s s' : S} (v : BInv cap x s) {w : Pc → Option Pc} (hw : ∀ p q, w p = some q → (∀ r, rest p = some r → rest q = some r) ∧ ∀ st, cutter (cap + 1) st p → cutter (cap + 1) st q)
    {l : List Pc} (hl : s'.pc = l) (hn : Notify w s.pc l) (e1 : s'.content = s.content) (e2 : s'.cap = s.cap) (e3 : s'.got = s.got) (e4 : s'.stop = s.stop) : BInv cap x s' := by
  cases hn with
  | one j p q hj hq =>
    have := hw p q hq
    exact v.put hj hl e1 e2 e3 e4 this.1 (this.2 _)
  | none _ =>
    obtain ⟨⟨a, b, r, h1, h2, h3, h4⟩, h5, h6, h7⟩ := v
    exact ⟨⟨a, b, r, hl.trans h1, h2, by rw [e1]; exact h3, by rw [e4]; exact h4⟩, e2.trans h5, e3.trans h6, by rw [e1]; exact h7⟩

theorem bigA {k : Nat} (p q : Pc) (h : wakeA p = some q) : (∀ r, rest p = some r → rest q = some r) ∧ ∀ st, cutter k st p → cutter k st q := by
  cases p <;> simp [wakeA] at h <;> subst h <;> simp [rest, cutter]

theorem bigC {k : Nat} (p q : Pc) (h : wakeC p = some q) : (∀ r, rest p = some r → rest q = some r) ∧ ∀ st, cutter k st p → cutter k st q := by
  cases p <;> simp [wakeC] at h <;> subst h <;> simp [rest, cutter]

theorem Big.inv {cap : Nat} {x : List Nat} (hx : cap < x.length) {s : S} (h : Big cap x s) : BInv cap x s := by
  induction h with
  | init => exact ⟨⟨_, _, x, rfl, rfl, rfl, rfl, rfl, rfl⟩, rfl, rfl, Nat.zero_le _⟩
  | close _ hi v => exact v.put hi rfl rfl rfl rfl rfl (by simp [rest]) (by simp [cutter])
  | timeout _ ht v =>
    cases ht with
    | append i y h =>
      obtain ⟨⟨a, b, r, h1, h2, h3, h4⟩, _⟩ := v
      rw [h1] at h
      rcases two h with ⟨rfl, rfl⟩ | ⟨rfl, rfl⟩ <;> simp [rest, cutter] at h2 h4
    | cut i n h => exact v.put h rfl rfl rfl rfl rfl (by simp [rest]) (by simp [cutter])
  | @step s s' _ hs v =>
    have impossible : ∀ {i : Nat} {p : Pc}, s.pc[i]? = some p → rest p = none → (∀ st, ¬ cutter (cap + 1) st p) → False := by
      intro i p hi hr hc
      obtain ⟨⟨a, b, r, h1, h2, h3, h4⟩, _⟩ := v
      rw [h1] at hi
      rcases two hi with ⟨rfl, rfl⟩ | ⟨rfl, rfl⟩
      · rw [hr] at h2; cases h2
      · exact hc _ h4
    cases hs with
    | aq i y t h => exact (impossible h rfl (by simp [cutter])).elim
    | al i y t h => exact (impossible h rfl (by simp [cutter])).elim
    | as i y t h => exact (impossible h rfl (by simp [cutter])).elim
    | ax i y h => exact (impossible h rfl (by simp [cutter])).elim
    | axl i y h => exact (impossible h rfl (by simp [cutter])).elim
    | cn i l h => exact (impossible h rfl (by simp [cutter])).elim
    | kn i l h => exact (impossible h rfl (by simp [cutter])).elim
    | vq i y h hl => exact v.put h rfl rfl rfl rfl rfl (by simp [rest]) (by simp [cutter])
    | vs i y h => exact v.put h rfl rfl rfl rfl rfl (by simp [rest]) (by simp [cutter])
    | vl i y h =>
      split
      · obtain ⟨⟨a, b, r, h1, h2, h3, h4⟩, h5, h6, h7⟩ := v
        rw [h1] at h
        rcases two h with ⟨rfl, rfl⟩ | ⟨rfl, rfl⟩
        · have : y = r := by simpa [rest] using h2
          subst this
          refine ⟨⟨_, b, _, by simp only [S.at, S.add, h1]; rfl, rfl, ?_, h4⟩, h5, h6, ?_⟩
          · simp only [S.at, S.add, List.append_assoc, List.take_append_drop]; exact h3
          · simp [S.at, S.add]; omega
        · exact h4.elim
      · exact v.put h rfl rfl rfl rfl rfl (by simp [rest]) (by simp [cutter])
    | an i y l h hn =>
      have hy : y ≠ [] := by
        obtain ⟨⟨a, b, r, h1, h2, h3, h4⟩, h5, h6, h7⟩ := v
        rw [h1] at h
        rcases two h with ⟨rfl, rfl⟩ | ⟨rfl, rfl⟩
        · have : y = r := by simpa [rest] using h2
          subst this
          intro e
          subst e
          rw [List.append_nil] at h3
          subst h3
          omega
        · exact h4.elim
      rw [if_neg hy] at hn
      have v1 : BInv cap x ({ s with pc := s.pc.set i (.vq y) }) := v.put h rfl rfl rfl rfl rfl (by simp [rest]) (by simp [cutter])
      exact v1.notify bigC rfl hn rfl rfl rfl rfl
    | cq i n t h hl => exact v.put h rfl rfl rfl rfl rfl (by simp [rest]) (by simp [cutter])
    | cs i n t h => exact v.put h rfl rfl rfl rfl rfl (by simp [rest]) (by simp [cutter])
    | cx i n h hl => exact v.put h rfl rfl rfl rfl rfl (by simp [rest]) (by simp [cutter])
    | cl i n t h =>
      have hno : s.canCut n = false := by
        obtain ⟨⟨a, b, r, h1, h2, h3, h4⟩, h5, h6, h7⟩ := v
        rw [h1] at h
        rcases two h with ⟨rfl, rfl⟩ | ⟨rfl, rfl⟩
        · simp [rest] at h2
        · simp only [cutter] at h4
          simp [S.canCut, h4.2.2, h4.1]; omega
      rw [if_neg (by simp [hno])]
      exact v.put h rfl rfl rfl rfl rfl (by simp [rest]) (by simp [cutter])
    | cxl i n h =>
      have hno : s.canCut n = false := by
        obtain ⟨⟨a, b, r, h1, h2, h3, h4⟩, h5, h6, h7⟩ := v
        rw [h1] at h
        rcases two h with ⟨rfl, rfl⟩ | ⟨rfl, rfl⟩
        · simp [rest] at h2
        · simp only [cutter] at h4
          simp [S.canCut, h4.2, h4.1]; omega
      rw [if_neg (by simp [hno])]
      exact v.put h rfl rfl rfl rfl rfl (by simp [rest]) (by simp [cutter])
    | s0 i h hl => exact v.put h rfl rfl rfl rfl rfl (by simp [rest]) (by simp [cutter])
    | s1 i h =>
      obtain ⟨⟨a, b, r, h1, h2, h3, h4⟩, h5, h6, h7⟩ := v
      rw [h1] at h
      rcases two h with ⟨rfl, rfl⟩ | ⟨rfl, rfl⟩
      · simp [rest] at h2
      · exact ⟨⟨a, .s2, r, by simp only [S.at, h1]; rfl, h2, h3, trivial⟩, h5, h6, h7⟩
    | s2 i l h hn =>
      have v1 : BInv cap x ({ s with pc := s.pc.set i .s3 }) := v.put h rfl rfl rfl rfl rfl (by simp [rest]) (by simp [cutter])
      exact v1.notify bigA rfl hn rfl rfl rfl rfl
    | s3 i l h hn =>
      have v1 : BInv cap x ({ s with pc := s.pc.set i .idle }) := v.put h rfl rfl rfl rfl rfl (by simp [rest]) (by simp [cutter])
      exact v1.notify bigC rfl hn rfl rfl rfl rfl

/-- A chunked body above the limit: whatever happens, the handler never gets the bytes that would tell it so (it waits until its time is over), and the fiber that reads the connection never returns, not even after
the stream is closed. -/
theorem C119_leak_partial {cap : Nat} {x : List Nat} (hx : cap < x.length) {s : S} (h : Big cap x s) : s.got = [] ∧ s.pc[0]? ≠ some .idle := by
  have v := h.inv hx
  obtain ⟨a, b, r, h1, h2, _⟩ := v.pcs
  refine ⟨v.got, ?_⟩
  rw [h1]
  intro e
  simp at e
  rw [e] at h2
  simp [rest] at h2

/-- And this is where it ends: the stream is closed, the handler is gone, the fiber sleeps. -/
theorem C119_end_partial : ∃ s : S, Big 1 [1, 2] s ∧ s.quiet ∧ s.stop = true ∧ s.pc = [.vz [2], .idle] := by
  have h : Big 1 [1, 2] ⟨[], 1, false, false, [.vq [1, 2], .cq 2 true], [], []⟩ := .init
  have h : Big 1 [1, 2] ⟨[], 1, false, true, [.vl [1, 2], .cq 2 true], [], []⟩ := h.step (.vq 0 [1, 2] rfl rfl)
  have h : Big 1 [1, 2] ⟨[1], 1, false, false, [.an [2], .cq 2 true], [1], []⟩ := h.step (.vl 0 [1, 2] rfl)
  have h : Big 1 [1, 2] ⟨[1], 1, false, false, [.vq [2], .cq 2 true], [1], []⟩ := h.step (.an 0 [2] _ rfl (.none (asleep rfl)))
  have h : Big 1 [1, 2] ⟨[1], 1, false, true, [.vl [2], .cq 2 true], [1], []⟩ := h.step (.vq 0 [2] rfl rfl)
  have h : Big 1 [1, 2] ⟨[1], 1, false, true, [.vs [2], .cq 2 true], [1], []⟩ := h.step (.vl 0 [2] rfl)
  have h : Big 1 [1, 2] ⟨[1], 1, false, false, [.vz [2], .cq 2 true], [1], []⟩ := h.step (.vs 0 [2] rfl)
  have h : Big 1 [1, 2] ⟨[1], 1, false, true, [.vz [2], .cl 2 true], [1], []⟩ := h.step (.cq 1 2 true rfl rfl)
  have h : Big 1 [1, 2] ⟨[1], 1, false, true, [.vz [2], .cs 2 true], [1], []⟩ := h.step (.cl 1 2 true rfl)
  have h : Big 1 [1, 2] ⟨[1], 1, false, false, [.vz [2], .cz 2 true], [1], []⟩ := h.step (.cs 1 2 true rfl)
  have h : Big 1 [1, 2] ⟨[1], 1, false, false, [.vz [2], .cx 2], [1], []⟩ := h.timeout (.cut 1 2 rfl)
  have h : Big 1 [1, 2] ⟨[1], 1, false, true, [.vz [2], .cxl 2], [1], []⟩ := h.step (.cx 1 2 rfl rfl)
  have h : Big 1 [1, 2] ⟨[1], 1, false, false, [.vz [2], .idle], [1], []⟩ := h.step (.cxl 1 2 rfl)
  have h : Big 1 [1, 2] ⟨[1], 1, false, false, [.vz [2], .s0], [1], []⟩ := h.close rfl
  have h : Big 1 [1, 2] ⟨[1], 1, false, true, [.vz [2], .s1], [1], []⟩ := h.step (.s0 1  rfl rfl)
  have h : Big 1 [1, 2] ⟨[1], 1, true, false, [.vz [2], .s2], [1], []⟩ := h.step (.s1 1  rfl)
  have h : Big 1 [1, 2] ⟨[1], 1, true, false, [.vq [2], .s3], [1], []⟩ := h.step (.s2 1 _ rfl (.one 0 (.vz [2]) (.vq [2]) rfl rfl))
  have h : Big 1 [1, 2] ⟨[1], 1, true, false, [.vq [2], .idle], [1], []⟩ := h.step (.s3 1 _ rfl (.none (asleep rfl)))
  have h : Big 1 [1, 2] ⟨[1], 1, true, true, [.vl [2], .idle], [1], []⟩ := h.step (.vq 0 [2] rfl rfl)
  have h : Big 1 [1, 2] ⟨[1], 1, true, true, [.vs [2], .idle], [1], []⟩ := h.step (.vl 0 [2] rfl)
  have h : Big 1 [1, 2] ⟨[1], 1, true, false, [.vz [2], .idle], [1], []⟩ := h.step (.vs 0 [2] rfl)
  exact ⟨_, h, quiet_of rfl, rfl, rfl⟩

end Verif.Sync.Blocking
