import Verif.Pool.Global

/-!
# Every block is in one place
-/

namespace Verif.Pool.Global

/-- Among the blocks of list `l` from `k` on. -/
def rg (l k b : Nat) : Nat := if 32 * l + k ≤ b ∧ b < 32 * l + 32 then 1 else 0

/-- How often block `b` is in the pool of a thread. -/
def fb (b : Nat) (t : L) : Nat :=
  t.free.count (.pool b) + match t.blist with
    | some (l, k) => rg l k b
    | none => 0

def fl (b : Nat) (p : List Blk × Nat) : Nat := p.1.count (.pool b)

/-- Not given to any thread yet. -/
def un (avail idx b : Nat) : Nat := if 1024 * (avail - 1) + 32 * idx ≤ b ∧ b < 1024 * avail then 1 else 0

/-- Belongs to the pool. -/
def tot (avail b : Nat) : Nat := if b < 1024 * avail then 1 else 0

theorem rg_next {l k : Nat} (b : Nat) (h : k < 32) : rg l (k + 1) b + (if 32 * l + k = b then 1 else 0) = rg l k b := by
  unfold rg; (repeat' split) <;> omega

theorem un_take {a i : Nat} (b : Nat) (h : i < 32) (ha : 1 ≤ a) : un a (i + 1) b + (if 32 * (32 * (a - 1) + i) + 0 = b then 1 else 0) + rg (32 * (a - 1) + i) 1 b = un a i b := by
  unfold un rg; (repeat' split) <;> omega

theorem un_new {a i : Nat} (b : Nat) (h : 32 ≤ i) (ha : 1 ≤ a) : un (a + 1) 1 b + (if 32 * (32 * a) + 0 = b then 1 else 0) + rg (32 * a) 1 b + tot a b = un a i b + tot (a + 1) b := by
  unfold un rg tot; (repeat' split) <;> omega

structure OkL (ex : Bool) (t : L) : Prop where
  len : t.len = t.free.length
  le : t.len ≤ 32
  pools : ∀ b ∈ t.free, ∃ n, b = Blk.pool n
  pc : t.pc = .a1 ∨ t.pc = .a2 ∨ t.pc = .a3 ∨ t.pc = .dead → t.free = []
  idx : ∀ l k, t.blist = some (l, k) → k ≤ 32
  used : t.pc = .a3 ∨ t.pc = .dead → ∀ l k, t.blist = some (l, k) → k = 32
  ex : ex = false → t.pc ≠ .x ∧ t.pc ≠ .dead

structure OkP (ex : Bool) (p : List Blk × Nat) : Prop where
  ne : p.1 ≠ []
  len : p.2 = p.1.length
  le : p.2 ≤ 32
  pools : ∀ b ∈ p.1, ∃ n, b = Blk.pool n
  ex : ex = false → p.2 = 32

structure Inv (ex : Bool) (max : Nat) (s : S) : Prop where
  hmax : s.max = max
  one : ∀ b, s.user.count (.pool b) + wsum (fb b) s.th + wsum (fl b) s.lists + un s.avail s.idx b = tot s.avail b
  av : 1 ≤ s.avail ∧ 1024 * (s.avail - 1) < max
  idx : s.idx ≤ 32
  sys : ∀ n, s.user.count (.sys n) ≤ if n < s.nsys then 1 else 0
  th : ∀ t ∈ s.th, OkL ex t
  lists : ∀ p ∈ s.lists, OkP ex p

theorem Inv.move {ex : Bool} {max : Nat} {s s' : S} {i : Nat} {t t' : L} (v : Inv ex max s) (h : s.th[i]? = some t) (hm : s'.max = s.max) (hth : s'.th = s.th.set i t') (ok : OkL ex t') (hl : ∀ p ∈ s'.lists, OkP ex p)
    (hav : 1 ≤ s'.avail ∧ 1024 * (s'.avail - 1) < max) (hidx : s'.idx ≤ 32) (hsys : ∀ n, s'.user.count (.sys n) ≤ if n < s'.nsys then 1 else 0)
    (one : ∀ b, s'.user.count (.pool b) + fb b t' + wsum (fl b) s'.lists + un s'.avail s'.idx b + tot s.avail b
      = s.user.count (.pool b) + fb b t + wsum (fl b) s.lists + un s.avail s.idx b + tot s'.avail b) : Inv ex max s' := by
  refine ⟨hm.trans v.hmax, ?_, hav, hidx, hsys, ?_, hl⟩
  · intro b
    have h1 := v.one b
    have h2 := one b
    have h3 := wsum_set (f := fb b) (b := t') h
    rw [hth]
    omega
  · intro x hx
    rw [hth] at hx
    rcases List.mem_or_eq_of_mem_set hx with hx | rfl
    · exact v.th x hx
    · exact ok

theorem wsum_cons {α : Type} (f : α → Nat) (a : α) (l : List α) : wsum f (a :: l) = f a + wsum f l := by simp [wsum]

theorem push_ok {s : S} {l : List Blk} {n : Nat} (h : (s.push l n).crash = false) : s.push l n = { s with lists := (l, n) :: s.lists } := by
  unfold S.push at h ⊢
  split
  · rfl
  · rename_i hn; simp [hn] at h

theorem count_sys_cons {u : List Blk} {n m : Nat} : (Blk.pool m :: u).count (.sys n) = u.count (.sys n) := by simp [List.count_cons]

theorem count_sys_erase {u : List Blk} {n m : Nat} : (u.erase (Blk.pool m)).count (.sys n) = u.count (.sys n) := List.count_erase_of_ne (by simp)

theorem count_pool_erase {u : List Blk} {n b : Nat} (h : Blk.pool n ∈ u) : (u.erase (Blk.pool n)).count (.pool b) + (if n = b then 1 else 0) = u.count (.pool b) := by
  have := List.count_pos_iff.2 h
  by_cases e : n = b
  · subst e; rw [List.count_erase_self]; simp; omega
  · rw [List.count_erase_of_ne (by simp; omega)]; simp [e]

theorem count_pool_erase_sys {u : List Blk} {n b : Nat} : (u.erase (Blk.sys n)).count (.pool b) = u.count (.pool b) := List.count_erase_of_ne (by simp)

theorem count_cons_pool {u : List Blk} {n b : Nat} : (Blk.pool n :: u).count (.pool b) = u.count (.pool b) + if n = b then 1 else 0 := by
  simp [List.count_cons]

theorem count_cons_sys {u : List Blk} {n b : Nat} : (Blk.sys n :: u).count (.pool b) = u.count (.pool b) := by
  simp [List.count_cons]

theorem Step.inv {ex : Bool} {max : Nat} {s s' : S} (v : Inv ex max s) (hs : Step ex s s') (hc' : s'.crash = false) : Inv ex max s' := by
  cases hs with
  | spawn =>
    refine ⟨v.hmax, ?_, v.av, v.idx, v.sys, ?_, v.lists⟩
    · intro b
      have := v.one b
      simp only [wsum, List.map_append, List.sum_append] at this ⊢
      simp [fb] at this ⊢; omega
    · intro t ht
      simp only [List.mem_append, List.mem_singleton] at ht
      rcases ht with ht | rfl
      · exact v.th t ht
      · constructor <;> simp
  | take i t b r h hp hf =>
    have ok := v.th t (List.mem_of_getElem? h)
    obtain ⟨n, rfl⟩ := ok.pools b (by rw [hf]; simp)
    have hlen := ok.len
    have hle := ok.le
    rw [hf] at hlen
    simp at hlen
    refine v.move h rfl rfl ?_ v.lists v.av v.idx (fun n => ?_) (fun b => ?_)
    · refine ⟨by simp; omega, by simp; omega, fun x hx => ok.pools x (by rw [hf]; simp [hx]), ?_, ok.idx, ok.used, ok.ex⟩
      simp [hp]
    · simp only [S.at, count_sys_cons]; exact v.sys n
    · simp only [S.at, fb, hf, count_cons_pool]; omega
  | ask i t h hp hf =>
    have ok := v.th t (List.mem_of_getElem? h)
    refine v.move h rfl rfl ?_ v.lists v.av v.idx v.sys (fun b => rfl)
    exact ⟨ok.len, ok.le, ok.pools, fun _ => hf, ok.idx, by simp, by simp⟩
  | popped i t l n ls h hp hl =>
    have ok := v.th t (List.mem_of_getElem? h)
    have okp := v.lists (l, n) (by rw [hl]; simp)
    cases l with
    | nil => exact absurd rfl okp.ne
    | cons b r =>
      obtain ⟨m, rfl⟩ := okp.pools b (by simp)
      have hlen := okp.len
      have hle := okp.le
      have hf := ok.pc (.inl hp)
      simp at hlen hle
      refine v.move h rfl rfl ?_ (fun p hpp => v.lists p (by rw [hl]; simp at hpp; simp [hpp])) v.av v.idx (fun n => ?_) (fun b => ?_)
      · refine ⟨by simp; omega, by simp; omega, fun x hx => okp.pools x (by simp at hx; simp [hx]), by simp, ok.idx, by simp, by simp⟩
      · simp only [S.at, count_sys_cons]; exact v.sys n
      · simp only [S.at, fb, hf, hl, wsum_cons, fl, count_cons_pool, List.count_nil]; omega
  | empty i t h hp hl =>
    have ok := v.th t (List.mem_of_getElem? h)
    refine v.move h rfl rfl ?_ v.lists v.av v.idx v.sys (fun b => rfl)
    exact ⟨ok.len, ok.le, ok.pools, fun _ => ok.pc (.inl hp), ok.idx, by simp, by simp⟩
  | block i t l k h hp hb hk =>
    have ok := v.th t (List.mem_of_getElem? h)
    refine v.move h rfl rfl ?_ v.lists v.av v.idx (fun n => ?_) (fun b => ?_)
    · exact ⟨ok.len, ok.le, ok.pools, by simp, by intro l' k' e; simp at e; omega, by simp, by simp⟩
    · simp only [S.at, blk, count_sys_cons]; exact v.sys n
    · simp only [S.at, fb, hb, blk, count_cons_pool]
      have := rg_next (l := l) b hk
      omega
  | used i t h hp hb =>
    have ok := v.th t (List.mem_of_getElem? h)
    refine v.move h rfl rfl ?_ v.lists v.av v.idx v.sys (fun b => rfl)
    exact ⟨ok.len, ok.le, ok.pools, fun _ => ok.pc (.inr (.inl hp)), ok.idx, fun _ l k e => by have := hb l k e; have := ok.idx l k e; omega, by simp⟩
  | @fresh s1 i l t h hp hb =>
    have ok := v.th t (List.mem_of_getElem? h)
    have hf := ok.pc (.inr (.inr (.inl hp)))
    have hu : ∀ b, (match t.blist with | some (l, k) => rg l k b | none => 0) = (0 : Nat) := by
      intro b
      cases e : t.blist with
      | none => rfl
      | some p =>
        obtain ⟨l', k'⟩ := p
        have := ok.used (.inl hp) l' k' e
        simp only [rg]
        rw [if_neg (by omega)]
    have okn : OkL ex { t with blist := some (l, 1), pc := .idle } :=
      ⟨ok.len, ok.le, ok.pools, by simp, by intro l' k' e; simp at e; omega, by simp, by simp⟩
    have hidx := v.idx
    have hav := v.av
    have hmx := v.hmax
    unfold S.popBlocks at hb
    split at hb
    · rename_i hi
      simp only [Prod.mk.injEq, Option.some.injEq] at hb
      obtain ⟨rfl, rfl⟩ := hb
      refine v.move h rfl rfl okn v.lists v.av (by simp [S.at]; omega) (fun n => ?_) (fun b => ?_)
      · simp only [S.at, blk, count_sys_cons]; exact v.sys n
      · simp only [S.at, fb, hu, blk, count_cons_pool]
        have := un_take b hi hav.1
        omega
    · split at hb
      · cases hb
      · split at hb
        · cases hb
        · rename_i hi hmx' hch
          simp only [Prod.mk.injEq, Option.some.injEq] at hb
          obtain ⟨rfl, rfl⟩ := hb
          refine v.move h rfl rfl okn v.lists ⟨by simp [S.at], by simp [S.at]; omega⟩ (by simp [S.at]) (fun n => ?_) (fun b => ?_)
          · simp only [S.at, blk, count_sys_cons]; exact v.sys n
          · simp only [S.at, fb, hu, blk, count_cons_pool]
            have := un_new b (Nat.le_of_not_lt hi) hav.1
            omega
  | @system s1 i t ok' h hp hb =>
    have ok := v.th t (List.mem_of_getElem? h)
    have hu : ∀ b, (match t.blist with | some (l, k) => rg l k b | none => 0) = (0 : Nat) := by
      intro b
      cases e : t.blist with
      | none => rfl
      | some p =>
        obtain ⟨l', k'⟩ := p
        have := ok.used (.inl hp) l' k' e
        simp only [rg]
        rw [if_neg (by omega)]
    have okn : OkL ex { t with blist := none, pc := .idle } :=
      ⟨ok.len, ok.le, ok.pools, by simp, by simp, by simp, by simp⟩
    have e1 : s1 = s := by
      unfold S.popBlocks at hb
      split at hb
      · cases hb
      · split at hb
        · simp at hb; exact hb.symm
        · split at hb
          · simp at hb
            rw [← hb] at hc'
            simp [S.at] at hc'
          · cases hb
    subst e1
    refine v.move h rfl rfl okn v.lists v.av v.idx (fun n => ?_) (fun b => ?_)
    · have := v.sys n
      cases ok' with
      | false => simpa [S.at] using this
      | true =>
        simp only [S.at, if_true, List.count_cons]
        by_cases e : s1.nsys = n
        · subst e
          simp at this ⊢
          omega
        · have e2 : ¬ (Blk.sys s1.nsys == Blk.sys n) = true := by simpa using e
          rw [if_neg e2]
          split at this <;> split <;> omega
    · simp only [S.at, fb, hu]
      cases ok' <;> simp [count_cons_sys]
  | freeSys i t n h hp hu =>
    refine ⟨v.hmax, ?_, v.av, v.idx, ?_, v.th, v.lists⟩
    · intro b; simp only [count_pool_erase_sys]; exact v.one b
    · intro m
      exact Nat.le_trans (List.Sublist.count_le _ List.erase_sublist) (v.sys m)
  | free i t n h hp hu =>
    have ok := v.th t (List.mem_of_getElem? h)
    have hle := ok.le
    have hlen := ok.len
    split
    · rename_i h32
      rw [if_pos h32] at hc'
      rw [push_ok hc']
      have okp : OkP ex (t.free, t.len) := ⟨by intro e; have e : t.free = [] := e; rw [e] at hlen; simp at hlen; omega, hlen, hle, ok.pools, fun _ => h32⟩
      refine v.move h rfl rfl ?_ ?_ v.av v.idx (fun m => ?_) (fun b => ?_)
      · exact ⟨rfl, by simp, by simp, by simp [hp], ok.idx, by simp [hp], ok.ex⟩
      · intro p hp'
        simp only [S.at, List.mem_cons] at hp'
        rcases hp' with rfl | hp'
        · exact okp
        · exact v.lists p hp'
      · simp only [S.at, count_sys_erase]; exact v.sys m
      · have := count_pool_erase (b := b) hu
        simp only [S.at, fb, wsum_cons, fl, count_cons_pool, List.count_nil]
        omega
    · rename_i h32
      refine v.move h rfl rfl ?_ v.lists v.av v.idx (fun m => ?_) (fun b => ?_)
      · exact ⟨by simp [hlen], by simp; omega, by intro x hx; simp at hx; rcases hx with rfl | hx; exact ⟨n, rfl⟩; exact ok.pools x hx, by simp [hp], ok.idx, by simp [hp], ok.ex⟩
      · simp only [S.at, count_sys_erase]; exact v.sys m
      · have := count_pool_erase (b := b) hu
        simp only [S.at, fb, count_cons_pool]
        omega
  | exit i t h hp he =>
    have ok := v.th t (List.mem_of_getElem? h)
    refine v.move h rfl rfl ?_ v.lists v.av v.idx v.sys (fun b => rfl)
    exact ⟨ok.len, ok.le, ok.pools, by simp, ok.idx, by simp, by simp [he]⟩
  | unload i t l k h hp hb hk =>
    have ok := v.th t (List.mem_of_getElem? h)
    have hle := ok.le
    have hlen := ok.len
    have hex := ok.ex
    have hxx : ex ≠ false := fun e => (hex e).1 hp
    split
    · rename_i h32
      rw [if_pos h32] at hc'
      rw [push_ok hc']
      have okp : OkP ex (t.free, t.len) := ⟨by intro e; have e : t.free = [] := e; rw [e] at hlen; simp at hlen; omega, hlen, hle, ok.pools, fun _ => h32⟩
      refine v.move h rfl rfl ?_ ?_ v.av v.idx v.sys (fun b => ?_)
      · exact ⟨rfl, by simp, by simp [blk], by simp [hp], by intro l' k' e; simp at e; omega, by simp [hp], fun e => absurd e hxx⟩
      · intro p hp'
        simp only [S.at, List.mem_cons] at hp'
        rcases hp' with rfl | hp'
        · exact okp
        · exact v.lists p hp'
      · simp only [S.at, fb, wsum_cons, fl, blk, hb, count_cons_pool, List.count_nil]
        have := rg_next (l := l) b hk
        omega
    · rename_i h32
      refine v.move h rfl rfl ?_ v.lists v.av v.idx v.sys (fun b => ?_)
      · exact ⟨by simp [hlen], by simp; omega, by intro x hx; simp at hx; rcases hx with rfl | hx; exact ⟨_, rfl⟩; exact ok.pools x hx, by simp [hp], by intro l' k' e; simp at e; omega, by simp [hp], fun e => absurd e hxx⟩
      · simp only [S.at, fb, blk, hb, count_cons_pool]
        have := rg_next (l := l) b hk
        omega
  | gone i t h hp hb =>
    have ok := v.th t (List.mem_of_getElem? h)
    have hle := ok.le
    have hlen := ok.len
    have hex := ok.ex
    have hxx : ex ≠ false := fun e => (hex e).1 hp
    have hk : ∀ l k, t.blist = some (l, k) → k = 32 := fun l k e => by have := hb l k e; have := ok.idx l k e; omega
    split
    · rename_i h0
      rw [if_pos h0] at hc'
      rw [push_ok hc']
      have okp : OkP ex (t.free, t.len) := ⟨by intro e; have e : t.free = [] := e; rw [e] at hlen; simp at hlen; omega, hlen, hle, ok.pools, fun e => absurd e hxx⟩
      refine v.move h rfl rfl ?_ ?_ v.av v.idx v.sys (fun b => ?_)
      · exact ⟨rfl, by simp, by simp, by simp, ok.idx, fun _ => hk, fun e => absurd e hxx⟩
      · intro p hp'
        simp only [S.at, List.mem_cons] at hp'
        rcases hp' with rfl | hp'
        · exact okp
        · exact v.lists p hp'
      · simp only [S.at, fb, wsum_cons, fl, List.count_nil]
        omega
    · rename_i h0
      refine v.move h rfl rfl ?_ v.lists v.av v.idx v.sys (fun b => rfl)
      have hnil : t.free = [] := List.eq_nil_of_length_eq_zero (by omega)
      exact ⟨hlen, hle, ok.pools, fun _ => hnil, ok.idx, fun _ => hk, fun e => absurd e hxx⟩

theorem Reach.inv {ex : Bool} {max : Nat} (hm : 0 < max) {s : S} (h : Reach ex max s) (hc : s.crash = false) : Inv ex max s := by
  induction h with
  | init =>
    refine ⟨rfl, ?_, ⟨by simp [S.init], by simpa [S.init] using hm⟩, by simp [S.init], by simp [S.init], by simp [S.init], by simp [S.init]⟩
    intro b
    simp [S.init, wsum, un, tot]
  | step _ hc0 hs ih => exact hs.inv (ih hc0) hc

end Verif.Pool.Global
