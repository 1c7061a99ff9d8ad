import Verif.Redis.Machine
/-!
# The parser reads what servers send
-/

namespace Verif.Redis

/-! ## More bytes do not change an outcome -/

/-- Once `p` has come to a result, further bytes do not change it. -/
def Mono {α : Type} (p : Bytes → R (α × Bytes)) : Prop := ∀ s u,
  (∀ a r, p s = .ok (a, r) → p (s ++ u) = .ok (a, r ++ u)) ∧ (p s = .bad → p (s ++ u) = .bad) ∧
    (p s = .overflow → p (s ++ u) = .overflow)

theorem Mono.bind {α β : Type} {p : Bytes → R (α × Bytes)} {f : α × Bytes → R (β × Bytes)} (hp : Mono p)
    (hq : ∀ a, Mono fun r => f (a, r)) : Mono fun s => (p s).bind f := by
  intro s u
  cases h : p s with
  | ok x =>
    obtain ⟨a, r⟩ := x
    have h1 := (hp s u).1 a r h
    simp only [h1, h, R.bind]
    exact hq a r u
  | less => simp only [h, R.bind]; exact ⟨nofun, nofun, nofun⟩
  | bad =>
    simp only [h, R.bind, (hp s u).2.1 h]
    exact ⟨nofun, fun _ => trivial, nofun⟩
  | overflow =>
    simp only [h, R.bind, (hp s u).2.2 h]
    exact ⟨nofun, nofun, fun _ => trivial⟩
  | ub => simp only [h, R.bind]; exact ⟨nofun, nofun, nofun⟩
  | loop => simp only [h, R.bind]; exact ⟨nofun, nofun, nofun⟩

theorem Mono.ok {α : Type} (a : α) : Mono fun s => .ok (a, s) := by
  intro s u
  refine ⟨?_, nofun, nofun⟩
  intro b r h
  cases h
  rfl

theorem Mono.bad {α : Type} : Mono (α := α) fun _ => .bad := fun _ _ => ⟨nofun, fun _ => rfl, nofun⟩

theorem Mono.overflow {α : Type} : Mono (α := α) fun _ => .overflow := fun _ _ => ⟨nofun, nofun, fun _ => rfl⟩

def lineP (s : Bytes) : R (Bytes × Bytes) := match line s with
  | none => .less
  | some x => .ok x

theorem lineP_mono : Mono lineP := by
  intro s u
  cases h : line s with
  | none => simp only [lineP, h]; exact ⟨nofun, nofun, nofun⟩
  | some x =>
    obtain ⟨l, r⟩ := x
    simp only [lineP, h, line_append_some h u]
    refine ⟨?_, nofun, nofun⟩
    intro a r' h
    cases h
    rfl

theorem number_lineP : number = fun s => (lineP s).bind fun x => if 24 ≤ x.1.length then .bad else (conv x.1).bind fun i => .ok (i, x.2) := by
  funext s
  simp only [number, lineP]
  cases line s <;> rfl

theorem number_mono : Mono number := by
  rw [number_lineP]
  refine lineP_mono.bind fun l => ?_
  by_cases hl : 24 ≤ l.length
  · simp only [hl, if_true]; exact Mono.bad
  · simp only [hl, if_false]
    rcases conv_cases l with ⟨i, hi⟩ | hi
    · simp only [hi, R.bind]; exact Mono.ok i
    · simp only [hi, R.bind]; exact Mono.overflow

theorem bulk_mono : Mono bulk := by
  unfold bulk
  refine number_mono.bind fun i => ?_
  by_cases hi : i < 0
  · simp only [hi, if_true]; exact Mono.ok _
  · simp only [hi, if_false]
    intro s u
    by_cases hl : s.length < i.toNat + 2
    · simp only [hl, if_true]; exact ⟨nofun, nofun, nofun⟩
    · have hl2 : ¬(s ++ u).length < i.toNat + 2 := by simp only [List.length_append]; omega
      simp only [hl, hl2, if_false]
      refine ⟨?_, nofun, nofun⟩
      intro a r h
      cases h
      rw [List.take_append_of_le_length (by omega), List.drop_append_of_le_length (by omega)]

theorem arrayHead_mono : Mono arrayHead := by
  unfold arrayHead
  refine number_mono.bind fun i => ?_
  by_cases h1 : toInt32 i = -1
  · simp only [h1, if_true]; exact Mono.ok _
  · by_cases h2 : 0 < toInt32 i
    · simp only [h1, h2, if_false, if_true]; exact Mono.ok _
    · simp only [h1, h2, if_false]; exact Mono.ok _

/-- The item after its type. -/
def body (deep : Bool) (t : UInt8) (s : Bytes) : R (Item × Bytes) :=
  if t = 45 then (lineP s).bind fun x => .ok (.leaf (.error x.1), x.2)
  else if t = 43 then (lineP s).bind fun x => .ok (.leaf (.status x.1), x.2)
  else if t = 58 then (number s).bind fun x => .ok (.leaf (.int x.1), x.2)
  else if t = 36 then (bulk s).bind fun x => .ok (.leaf x.1, x.2)
  else if deep then .bad
  else arrayHead s

def isType (t : UInt8) : Prop := t = 45 ∨ t = 43 ∨ t = 58 ∨ t = 36 ∨ t = 42

instance (t : UInt8) : Decidable (isType t) := inferInstanceAs (Decidable (_ ∨ _))

theorem item_body (deep : Bool) (t : UInt8) (s : Bytes) :
    item deep (t :: s) = if isType t then (if s = [] then .less else body deep t s) else .bad := by
  simp only [item, isType, body, lineP]
  cases line s <;> rfl

theorem body_mono (deep : Bool) (t : UInt8) : Mono (body deep t) := by
  unfold body
  by_cases h1 : t = 45
  · simp only [if_pos h1]; exact lineP_mono.bind fun a => by dsimp only; exact Mono.ok _
  · by_cases h2 : t = 43
    · simp only [if_neg h1, if_pos h2]; exact lineP_mono.bind fun a => by dsimp only; exact Mono.ok _
    · by_cases h3 : t = 58
      · simp only [if_neg h1, if_neg h2, if_pos h3]; exact number_mono.bind fun a => by dsimp only; exact Mono.ok _
      · by_cases h4 : t = 36
        · simp only [if_neg h1, if_neg h2, if_neg h3, if_pos h4]; exact bulk_mono.bind fun a => by dsimp only; exact Mono.ok _
        · simp only [if_neg h1, if_neg h2, if_neg h3, if_neg h4]
          cases deep
          · exact arrayHead_mono
          · exact Mono.bad

theorem item_mono (deep : Bool) : Mono (item deep) := by
  intro s u
  cases s with
  | nil => exact ⟨nofun, nofun, nofun⟩
  | cons t s =>
    rw [List.cons_append, item_body, item_body]
    by_cases ht : isType t
    · simp only [ht, if_true]
      cases s with
      | nil => exact ⟨nofun, nofun, nofun⟩
      | cons x s =>
        simp only [reduceCtorEq, if_false, List.cons_append]
        exact body_mono deep t (x :: s) u
    · simp only [ht, if_false]
      exact ⟨nofun, fun _ => trivial, nofun⟩

theorem elems_mono {p : Bytes → R (Val × Bytes)} (hp : Mono p) (n : Nat) : Mono (elems p n) := by
  induction n with
  | zero => exact Mono.ok _
  | succ n ih => exact hp.bind fun v => by dsimp only; exact ih.bind fun vs => by dsimp only; exact Mono.ok (v :: vs)

theorem parse_mono (d : Nat) : Mono (parse d) := by
  induction d with
  | zero =>
    have : parse 0 = fun s => (item true s).bind fun x => match x.1 with
      | .leaf v => .ok (v, x.2)
      | .array _ => .bad := by funext s; rfl
    rw [this]
    refine (item_mono true).bind fun i => ?_
    cases i with
    | leaf v => exact Mono.ok v
    | array e => exact Mono.bad
  | succ d ih =>
    have : parse (d + 1) = fun s => (item false s).bind fun x => match x.1 with
      | .leaf v => .ok (v, x.2)
      | .array e => (elems (parse d) e.toNat x.2).bind fun y => .ok (.array y.1, y.2) := by funext s; rfl
    rw [this]
    refine (item_mono false).bind fun i => ?_
    cases i with
    | leaf v => exact Mono.ok v
    | array e => exact (elems_mono ih _).bind fun vs => by dsimp only; exact Mono.ok _

theorem serial_mono : Mono serial := by
  intro s u
  cases s with
  | nil => exact ⟨nofun, nofun, nofun⟩
  | cons t s =>
    rw [List.cons_append]
    simp only [serial]
    by_cases ht : t = 64
    · simp only [ht, if_true]
      cases s with
      | nil => exact ⟨nofun, nofun, nofun⟩
      | cons x s =>
        simp only [reduceCtorEq, if_false, List.cons_append]
        exact (number_mono.bind fun i => Mono.ok (i % 2 ^ 32).toNat) (x :: s) u
    · simp only [ht, if_false]
      exact (Mono.ok 0) (t :: s) u

theorem numbered_mono (d : Nat) : Mono (numbered d) :=
  serial_mono.bind fun _ => by dsimp only; exact (parse_mono d).bind fun _ => by dsimp only; exact Mono.ok _

theorem readReply_mono (count : Int) : Mono (readReply count) := by
  unfold readReply
  by_cases h : 1 < count
  · simp only [h, if_true]
    exact (elems_mono (numbered_mono 7) _).bind fun _ => by dsimp only; exact Mono.ok _
  · simp only [h, if_false]
    exact numbered_mono 8

/-- If the whole is read to its end, all its beginnings are incomplete. -/
theorem Mono.prefix {α : Type} {p : Bytes → R (α × Bytes)} (hp : Mono p) (hg : ∀ s, p s ≠ .ub ∧ p s ≠ .loop) {s u : Bytes} {a : α}
    (h : p (s ++ u) = .ok (a, [])) (hu : u ≠ []) : p s = .less := by
  cases hs : p s with
  | ok x =>
    obtain ⟨b, r⟩ := x
    rw [(hp s u).1 b r hs] at h
    simp only [R.ok.injEq, Prod.mk.injEq, List.append_eq_nil_iff] at h
    exact absurd h.2.2 hu
  | less => rfl
  | bad => rw [(hp s u).2.1 hs] at h; cases h
  | overflow => rw [(hp s u).2.2 hs] at h; cases h
  | ub => exact absurd hs (hg s).1
  | loop => exact absurd hs (hg s).2

/-! ## Numbers -/

theorem digit_toNat {n : Nat} (h : n < 10) : (digit n).toNat = 48 + n := by
  simp only [digit, UInt8.toNat_ofNat']
  omega

theorem dec_digits (n : Nat) : ∀ c ∈ dec n, 48 ≤ c.toNat ∧ c.toNat < 58 := by
  induction n using Nat.strongRecOn with
  | ind n ih =>
    rw [dec]
    split
    · rename_i h
      intro c hc
      simp only [List.mem_singleton] at hc
      subst hc
      rw [digit_toNat h]
      omega
    · intro c hc
      simp only [List.mem_append, List.mem_singleton] at hc
      rcases hc with hc | hc
      · exact ih (n / 10) (by omega) c hc
      · subst hc
        rw [digit_toNat (by omega)]
        omega

theorem dec_ne_nil (n : Nat) : dec n ≠ [] := by
  rw [dec]
  split <;> simp

theorem dec_length {n k : Nat} (h : n < 10 ^ (k + 1)) : (dec n).length ≤ k + 1 := by
  induction k generalizing n with
  | zero => rw [dec, if_pos (by simpa using h)]; simp
  | succ k ih =>
    rw [dec]
    split
    · simp
    · have := ih (n := n / 10) (by rw [Nat.div_lt_iff_lt_mul (by omega)]; rw [Nat.pow_succ] at h; exact h)
      simp only [List.length_append, List.length_singleton]
      omega

theorem convLoop_append (a b : Bytes) (m : Nat) (v w : Int) (h : convLoop a a.length v = .ok (some w)) :
    convLoop (a ++ b) (a.length + m) v = convLoop b m w := by
  induction a generalizing v with
  | nil =>
    simp only [List.length_nil, convLoop, R.ok.injEq, Option.some.injEq] at h
    subst h
    simp
  | cons c a ih =>
    simp only [List.length_cons, convLoop] at h
    rw [List.cons_append, List.length_cons, Nat.add_right_comm]
    simp only [convLoop]
    split at h
    · rename_i hc
      rw [if_pos hc]
      split at h
      · cases h
      · rename_i h1
        rw [if_neg h1]
        split at h
        · cases h
        · rename_i h2
          rw [if_neg h2]
          exact ih _ h
    · cases h

theorem convLoop_dec (n : Nat) (h : n < 2 ^ 63) : convLoop (dec n) (dec n).length 0 = .ok (some n) := by
  induction n using Nat.strongRecOn with
  | ind n ih =>
    have hone : ∀ (m : Nat) (v : Int), m < 10 → 0 ≤ v → v * 10 + m < 2 ^ 63 → convLoop [digit m] 1 v = .ok (some (v * 10 + m)) := by
      intro m v hm hv0 hv
      have hd := digit_toNat hm
      have h48 : (48 : UInt8) ≤ digit m ∧ digit m < 58 := by
        simp only [UInt8.le_iff_toNat_le, UInt8.lt_iff_toNat_lt, hd]
        exact ⟨by show 48 ≤ _; omega, by show _ < 58; omega⟩
      simp only [convLoop, hd]
      rw [if_pos h48, if_neg (by omega), if_neg (by omega)]
      have : ((48 + m - 48 : Nat) : Int) = m := by omega
      rw [this]
    rw [dec]
    split
    · rename_i h10
      have := hone n 0 h10 (by omega) (by omega)
      simpa using this
    · rename_i h10
      rw [List.length_append, List.length_singleton,
        convLoop_append (dec (n / 10)) [digit (n % 10)] 1 0 (n / 10 : Nat) (ih (n / 10) (by omega) (by omega)),
        hone (n % 10) _ (by omega) (by omega) (by omega)]
      congr 2
      omega

theorem conv_dec {n : Nat} (h : n < 2 ^ 63) : conv (dec n) = .ok n := by
  have hne := dec_ne_nil n
  have hd := dec_digits n
  have hc := convLoop_dec n h
  rw [conv, if_neg hne]
  cases hl : dec n with
  | nil => exact absurd hl hne
  | cons x l =>
    rw [hl] at hd hc
    have hx := hd x (by simp)
    have h45 : x ≠ 45 := by rintro rfl; simp at hx
    have h43 : x ≠ 43 := by rintro rfl; simp at hx
    simp only [convert, if_neg h45, if_neg h43, hc, signed]
    simp

theorem conv_decInt {i : Int} (h1 : -2 ^ 63 < i) (h2 : i < 2 ^ 63) : conv (decInt i) = .ok i := by
  rw [decInt]
  split
  · have hc := convLoop_dec i.natAbs (by omega)
    rw [conv, if_neg (by simp)]
    simp only [convert, if_true, List.length_cons, Nat.add_one_ne_zero, if_false, Nat.add_sub_cancel, hc, signed]
    simp; omega
  · rw [conv_dec (by omega)]
    simp; omega

theorem line_of_noCr {l : Bytes} (h : ∀ c ∈ l, c ≠ 13) (r : Bytes) : line (l ++ crlf ++ r) = some (l, r) := by
  rw [List.append_assoc, line_skip h]
  simp [crlf, line]

theorem number_decInt {i : Int} (h1 : -2 ^ 63 < i) (h2 : i < 2 ^ 63) (r : Bytes) : number (decInt i ++ crlf ++ r) = .ok (i, r) := by
  have hcr : ∀ c ∈ decInt i, c ≠ 13 := by
    intro c hc
    rw [decInt] at hc
    split at hc
    · rcases List.mem_cons.1 hc with rfl | hc
      · decide
      · have := dec_digits _ c hc; rintro rfl; simp at this
    · have := dec_digits _ c hc; rintro rfl; simp at this
  have hlen : ¬24 ≤ (decInt i).length := by
    have := dec_length (n := i.natAbs) (k := 18) (by omega)
    rw [decInt]
    split
    · simp only [List.length_cons]; omega
    · omega
  rw [number, line_of_noCr hcr]
  simp only [if_neg hlen, conv_decInt h1 h2, R.bind]

theorem number_dec {n : Nat} (h : n < 2 ^ 63) (r : Bytes) : number (dec n ++ crlf ++ r) = .ok ((n : Int), r) := by
  have := number_decInt (i := n) (by omega) (by omega) r
  rw [decInt, if_neg (by omega)] at this
  simpa using this

theorem line_noCrlf {l : Bytes} (h : NoCrlf l) (r : Bytes) : line (l ++ crlf ++ r) = some (l, r) := by
  induction l with
  | nil => simp [crlf, line]
  | cons a l ih =>
    have ih := ih fun x y hx => h (a :: x) y (by rw [hx]; rfl)
    cases l with
    | nil =>
      simp [crlf, line]
    | cons b l =>
      have : ¬(a = 13 ∧ b = 10) := by
        rintro ⟨rfl, rfl⟩
        exact h [] l rfl
      simp only [List.cons_append, line, this, if_false] at ih ⊢
      rw [ih]
      rfl

/-! ## Replies -/

theorem toInt32_small {n : Nat} (h : n < 2 ^ 31) : toInt32 (n : Int) = n := by
  simp only [toInt32]
  omega

theorem enc_ne_nil (v : Val) : v.enc ≠ [] := by
  cases v <;> simp [Val.enc]

theorem item_status {s : Bytes} (h : NoCrlf s) (deep : Bool) (r : Bytes) :
    item deep ((Val.status s).enc ++ r) = .ok (.leaf (.status s), r) := by
  have : (Val.status s).enc ++ r = 43 :: (s ++ crlf ++ r) := by simp [Val.enc]
  rw [this, item_body, if_pos (by simp [isType]), if_neg (by simp [crlf]), body]
  rw [if_neg (by decide), if_pos rfl]
  simp only [lineP, line_noCrlf h, R.bind]

theorem item_error {s : Bytes} (h : NoCrlf s) (deep : Bool) (r : Bytes) :
    item deep ((Val.error s).enc ++ r) = .ok (.leaf (.error s), r) := by
  have : (Val.error s).enc ++ r = 45 :: (s ++ crlf ++ r) := by simp [Val.enc]
  rw [this, item_body, if_pos (by simp [isType]), if_neg (by simp [crlf]), body]
  simp only [lineP, line_noCrlf h, R.bind, if_true]

theorem item_int {i : Int} (h1 : -2 ^ 63 < i) (h2 : i < 2 ^ 63) (deep : Bool) (r : Bytes) :
    item deep ((Val.int i).enc ++ r) = .ok (.leaf (.int i), r) := by
  have : (Val.int i).enc ++ r = 58 :: (decInt i ++ crlf ++ r) := by simp [Val.enc]
  rw [this, item_body, if_pos (by simp [isType]), if_neg (by simp [crlf]), body]
  rw [if_neg (by decide), if_neg (by decide), if_pos rfl, number_decInt h1 h2]
  rfl

theorem item_str {s : Bytes} (h : s.length < 2 ^ 63) (deep : Bool) (r : Bytes) :
    item deep ((Val.str s).enc ++ r) = .ok (.leaf (.str s), r) := by
  have : (Val.str s).enc ++ r = 36 :: (dec s.length ++ crlf ++ (s ++ crlf ++ r)) := by simp [Val.enc]
  rw [this, item_body, if_pos (by simp [isType]), if_neg (by simp [crlf]), body]
  rw [if_neg (by decide), if_neg (by decide), if_neg (by decide), if_pos rfl, bulk, number_dec h]
  simp only [R.bind]
  rw [if_neg (by omega), if_neg (by simp [crlf])]
  have h1 : (s ++ crlf ++ r).take (s.length : Int).toNat = s := by simp
  have h2 : (s ++ crlf ++ r).drop ((s.length : Int).toNat + 2) = r := by
    have : (s.length : Int).toNat + 2 = (s ++ crlf).length := by simp [crlf]
    rw [this, List.drop_left]
  rw [h1, h2]

theorem item_nil (deep : Bool) (r : Bytes) : item deep (Val.nil.enc ++ r) = .ok (.leaf .nil, r) := by
  have : Val.nil.enc ++ r = 36 :: (decInt (-1) ++ crlf ++ r) := by
    have : decInt (-1) = [45, 49] := by decide +kernel
    rw [this]
    simp [Val.enc, crlf]
  rw [this, item_body, if_pos (by simp [isType]), if_neg (by simp [crlf]), body]
  rw [if_neg (by decide), if_neg (by decide), if_neg (by decide), if_pos rfl, bulk, number_decInt (by decide) (by decide)]
  rfl

theorem arrayHead_of {s r : Bytes} {i : Int} (h : number s = .ok (i, r)) : arrayHead s =
    if toInt32 i = -1 then .ok (.leaf .nil, r) else if 0 < toInt32 i then .ok (.array (toInt32 i), r) else .ok (.leaf (.array []), r) := by
  rw [arrayHead, h, R.bind]

theorem item_array {n : Nat} (h : n < 2 ^ 31) (r : Bytes) :
    item false (42 :: (dec n ++ crlf ++ r)) = if n = 0 then .ok (.leaf (.array []), r) else .ok (.array n, r) := by
  rw [item_body, if_pos (by simp [isType]), if_neg (by simp [crlf]), body]
  simp only [show ((42 : UInt8) = 45) = False from by simp, show ((42 : UInt8) = 43) = False from by simp,
    show ((42 : UInt8) = 58) = False from by simp, show ((42 : UInt8) = 36) = False from by simp, if_false, Bool.false_eq_true]
  have h63 : n < 2 ^ 63 := by omega
  rw [arrayHead_of (number_dec h63 r), toInt32_small h]
  have h1 : ¬(n : Int) = -1 := by omega
  rw [if_neg h1]
  by_cases h0 : n = 0
  · have h2 : ¬0 < (n : Int) := by omega
    rw [if_pos h0, if_neg h2]
  · have h2 : 0 < (n : Int) := by omega
    rw [if_neg h0, if_pos h2]

mutual
theorem parse_enc (d : Nat) (v : Val) (h : v.Ok d) (r : Bytes) : parse d (v.enc ++ r) = .ok (v, r) := by
  match v, d, h with
  | .status s, d, h => cases d <;> simp only [Val.Ok] at h <;> simp only [parse, item_status h, R.bind]
  | .error s, d, h => cases d <;> simp only [Val.Ok] at h <;> simp only [parse, item_error h, R.bind]
  | .int i, d, h => cases d <;> simp only [Val.Ok] at h <;> simp only [parse, item_int h.1 h.2, R.bind]
  | .str s, d, h => cases d <;> simp only [Val.Ok] at h <;> simp only [parse, item_str h, R.bind]
  | .nil, d, _ => cases d <;> simp only [parse, item_nil, R.bind]
  | .array xs, 0, h => simp only [Val.Ok] at h
  | .array xs, d + 1, h =>
    simp only [Val.Ok] at h
    have he : (Val.array xs).enc ++ r = 42 :: (dec xs.length ++ crlf ++ (encAll xs ++ r)) := by simp [Val.enc]
    rw [he, parse, item_array h.1]
    by_cases h0 : xs.length = 0
    · rw [if_pos h0]
      obtain rfl := List.eq_nil_of_length_eq_zero h0
      simp [R.bind, encAll]
    · rw [if_neg h0]
      simp only [R.bind, Int.toNat_natCast, elems_enc d xs h.2 r]
  | .numbered n v, d, h => cases d <;> simp only [Val.Ok] at h

theorem elems_enc (d : Nat) (xs : List Val) (h : AllOk d xs) (r : Bytes) :
    elems (parse d) xs.length (encAll xs ++ r) = .ok (xs, r) := by
  match xs, h with
  | [], _ => simp [elems, encAll]
  | v :: vs, h =>
    simp only [AllOk] at h
    simp only [List.length_cons, elems, encAll, List.append_assoc]
    rw [parse_enc d v h.1]
    simp only [R.bind, elems_enc d vs h.2 r]
end

theorem enc_head {d : Nat} {v : Val} (h : v.Ok d) : ∃ t s, v.enc = t :: s ∧ t ≠ 64 := by
  cases v with
  | numbered n v => cases d <;> simp only [Val.Ok] at h
  | _ => simp [Val.enc]

theorem numbered_enc {d : Nat} {v : Val} (h : v.TopOk d) (r : Bytes) : numbered d (v.enc ++ r) = .ok (v, r) := by
  have hplain : v.Ok d → numbered d (v.enc ++ r) = .ok (v, r) := by
    intro h
    obtain ⟨t, s, h1, h2⟩ := enc_head h
    have : serial (v.enc ++ r) = .ok (0, v.enc ++ r) := by
      rw [h1, List.cons_append, serial, if_neg h2]
    rw [numbered, this]
    simp only [R.bind, parse_enc d v h, mk, if_true]
  cases v with
  | numbered n v =>
    simp only [Val.TopOk] at h
    have he : (Val.numbered n v).enc ++ r = 64 :: (dec n ++ crlf ++ (v.enc ++ r)) := by simp [Val.enc]
    rw [he, numbered, serial, if_pos rfl, if_neg (by simp [crlf]), number_dec (by omega)]
    have hn : ((n : Int) % 2 ^ 32).toNat = n := by omega
    simp only [R.bind, parse_enc d v h.2.2, hn, mk]
    rw [if_neg (by omega)]
  | _ => exact hplain h

def AllTopOk (d : Nat) (xs : List Val) : Prop := ∀ v ∈ xs, v.TopOk d

theorem elems_numbered_enc {d : Nat} {xs : List Val} (h : AllTopOk d xs) (r : Bytes) :
    elems (numbered d) xs.length (encAll xs ++ r) = .ok (xs, r) := by
  induction xs with
  | nil => simp [elems, encAll]
  | cons v vs ih =>
    simp only [List.length_cons, elems, encAll, List.append_assoc]
    rw [numbered_enc (h v (by simp))]
    simp only [R.bind, ih fun w hw => h w (by simp [hw])]

end Verif.Redis
