import Verif.Redis.Request
import Verif.Redis.RoundTrip
/-!
# Requests arrive as they were meant
-/

namespace Verif.Redis

theorem fmtU_small {n : Nat} (h : n < 2 ^ 32) : fmtU n = dec n := by
  rw [fmtU, Nat.mod_eq_of_lt h]

/-- The encoding is that of an array of strings. -/
theorem encodeParams_eq {ps : List Bytes} (h : ps.length < 2 ^ 32) (hp : ∀ p ∈ ps, p.length < 2 ^ 32) :
    encodeParams ps = (Val.array (ps.map .str)).enc := by
  have hb : ∀ qs : List Bytes, (∀ p ∈ qs, p.length < 2 ^ 32) →
      (qs.map fun p => 36 :: fmtU p.length ++ crlf ++ p ++ crlf).flatten = encAll (qs.map .str) := by
    intro qs
    induction qs with
    | nil => intro _; rfl
    | cons q qs ih =>
      intro hq
      simp only [List.map_cons, List.flatten_cons, encAll, Val.enc]
      rw [ih fun p hp => hq p (by simp [hp]), fmtU_small (hq q (by simp))]
  rw [encodeParams, hb ps hp, fmtU_small h, Val.enc, List.length_map]

theorem allOk_str {d : Nat} {ps : List Bytes} (hp : ∀ p ∈ ps, p.length < 2 ^ 32) : AllOk d (ps.map .str) := by
  induction ps with
  | nil => simp [AllOk]
  | cons p ps ih =>
    simp only [List.map_cons, AllOk]
    refine ⟨?_, ih fun q hq => hp q (by simp [hq])⟩
    have := hp p (by simp)
    have : p.length < 2 ^ 63 := by omega
    cases d <;> simpa only [Val.Ok] using this

theorem parse_params {ps : List Bytes} (h : ps.length < 2 ^ 31) (hp : ∀ p ∈ ps, p.length < 2 ^ 32) (r : Bytes) :
    parse 1 (encodeParams ps ++ r) = .ok (.array (ps.map .str), r) := by
  rw [encodeParams_eq (by omega) hp]
  refine parse_enc 1 _ ?_ r
  simp only [Val.Ok, List.length_map]
  exact ⟨h, allOk_str hp⟩

/-! ## Formats -/

/-- A piece of a word of a format. -/
inductive Piece where
  | lit (c : UInt8)
  | str (s : Bytes)
  | bin (m : Bytes) (n : Nat)
  | percent
  | int (i : Int)
  | int64 (i : Int)

/-- How it is written: a character, `%s`, `%b`, `%%`, `%d`, `%ld`. -/
def Piece.fmt : Piece → Bytes
  | .lit c => [c]
  | .str _ => [37, 115]
  | .bin _ _ => [37, 98]
  | .percent => [37, 37]
  | .int _ => [37, 100]
  | .int64 _ => [37, 108, 100]

def Piece.args : Piece → List Arg
  | .str s => [.cstr s]
  | .bin m n => [.mem m, .size n]
  | .int i => [.int i]
  | .int64 i => [.int64 i]
  | _ => []

/-- What it stands for. -/
def Piece.text : Piece → Bytes
  | .lit c => [c]
  | .str s => s
  | .bin m n => m.take n
  | .percent => [37]
  | .int i => decInt i
  | .int64 i => decInt i

def Piece.Ok : Piece → Prop
  | .lit c => c ≠ 0 ∧ c ≠ 32 ∧ c ≠ 37
  | .str s => 0 ∉ s
  | .bin m n => n ≤ m.length
  | _ => True

/-- `vsnprintf` prints integers in decimal. -/
def Prints (pf : Printf) : Prop := ∀ i as, pf [37, 100] (.int i :: as) = some (decInt i) ∧ pf [37, 108, 100] (.int64 i :: as) = some (decInt i)

theorem piece_step {pf : Printf} (hpf : Prints pf) {x : Piece} (hx : x.Ok) (fuel : Nat) (rest : Bytes) (as : List Arg) (ps : List Bytes)
    (cur : Bytes) (touched : Bool) :
    formatLoop pf (fuel + 1) (x.fmt ++ rest) (x.args ++ as) ps cur touched = formatLoop pf fuel rest as ps (cur ++ x.text) true := by
  cases x with
  | lit c =>
    obtain ⟨h0, h1, h2⟩ := hx
    simp only [Piece.fmt, Piece.args, Piece.text, List.cons_append, List.nil_append, formatLoop]
    simp [h0, h1, h2]
  | str s => simp [Piece.fmt, Piece.args, Piece.text, formatLoop]
  | bin m n => simp [Piece.fmt, Piece.args, Piece.text, formatLoop, show n ≤ m.length from hx]
  | percent => simp [Piece.fmt, Piece.args, Piece.text, formatLoop]
  | int i =>
    have h1 : skipFlags (100 :: rest) = 100 :: rest := by simp [skipFlags, skipOne, skipDigits, isDigit]
    have h2 : conversion (100 :: rest) = some (100 :: rest, .int) := by simp [conversion, inInt]
    have h3 : (37 :: 100 :: rest).length - (100 :: rest).length + 1 = 2 := by simp only [List.length_cons]; omega
    simp only [Piece.fmt, Piece.args, Piece.text, List.cons_append, List.nil_append, formatLoop, h1, h2, take, h3]
    simp [(hpf i as).1]
  | int64 i =>
    have h1 : skipFlags (108 :: 100 :: rest) = 108 :: 100 :: rest := by simp [skipFlags, skipOne, skipDigits, isDigit]
    have h2 : conversion (108 :: 100 :: rest) = some (100 :: rest, .int64) := by simp [conversion, inInt, inDouble]
    have h3 : (37 :: 108 :: 100 :: rest).length - (100 :: rest).length + 1 = 3 := by simp only [List.length_cons]; omega
    simp only [Piece.fmt, Piece.args, Piece.text, List.cons_append, List.nil_append, formatLoop, h1, h2, take, h3]
    simp [(hpf i as).2]

/-- A word: at least one piece. -/
abbrev Word := Piece × List Piece

def Word.pieces (w : Word) : List Piece := w.1 :: w.2

def fmtAll (xs : List Piece) : Bytes := (xs.map Piece.fmt).flatten
def argsAll (xs : List Piece) : List Arg := (xs.map Piece.args).flatten
def textAll (xs : List Piece) : Bytes := (xs.map Piece.text).flatten

theorem pieces_step {pf : Printf} (hpf : Prints pf) (xs : List Piece) (hx : ∀ x ∈ xs, x.Ok) (fuel : Nat) (rest : Bytes) (as : List Arg)
    (ps : List Bytes) (cur : Bytes) :
    formatLoop pf (fuel + xs.length) (fmtAll xs ++ rest) (argsAll xs ++ as) ps cur true =
      formatLoop pf fuel rest as ps (cur ++ textAll xs) true := by
  induction xs generalizing cur with
  | nil => simp [fmtAll, argsAll, textAll]
  | cons x xs ih =>
    have h1 : fmtAll (x :: xs) ++ rest = x.fmt ++ (fmtAll xs ++ rest) := by simp [fmtAll]
    have h2 : argsAll (x :: xs) ++ as = x.args ++ (argsAll xs ++ as) := by simp [argsAll]
    have h3 : cur ++ textAll (x :: xs) = cur ++ x.text ++ textAll xs := by simp [textAll]
    rw [h1, h2, h3, List.length_cons, ← Nat.add_assoc, piece_step hpf (hx x (by simp)), ih fun y hy => hx y (by simp [hy])]

theorem word_step {pf : Printf} (hpf : Prints pf) (w : Word) (hx : ∀ x ∈ w.pieces, x.Ok) (fuel : Nat) (rest : Bytes) (as : List Arg)
    (ps : List Bytes) :
    formatLoop pf (fuel + w.pieces.length) (fmtAll w.pieces ++ rest) (argsAll w.pieces ++ as) ps [] false =
      formatLoop pf fuel rest as ps (textAll w.pieces) true := by
  obtain ⟨x, xs⟩ := w
  simp only [Word.pieces] at hx ⊢
  have h1 : fmtAll (x :: xs) ++ rest = x.fmt ++ (fmtAll xs ++ rest) := by simp [fmtAll]
  have h2 : argsAll (x :: xs) ++ as = x.args ++ (argsAll xs ++ as) := by simp [argsAll]
  have h3 : textAll (x :: xs) = [] ++ x.text ++ textAll xs := by simp [textAll]
  rw [h1, h2, h3, List.length_cons, ← Nat.add_assoc, piece_step hpf (hx x (by simp)),
    pieces_step hpf xs fun y hy => hx y (by simp [hy])]

def spaces (n : Nat) : Bytes := List.replicate n 32

theorem spaces_step {pf : Printf} (n fuel : Nat) (rest : Bytes) (as : List Arg) (ps : List Bytes) :
    formatLoop pf (fuel + n) (spaces n ++ rest) as ps [] false = formatLoop pf fuel rest as ps [] false := by
  induction n with
  | zero => simp [spaces]
  | succ n ih =>
    have : spaces (n + 1) ++ rest = 32 :: (spaces n ++ rest) := by simp [spaces, List.replicate_succ]
    rw [this, ← Nat.add_assoc]
    simp only [formatLoop]
    simp [ih]

/-- The spaces after a word end it. -/
theorem spaces_end {pf : Printf} (n fuel : Nat) (rest : Bytes) (as : List Arg) (ps : List Bytes) (cur : Bytes) :
    formatLoop pf (fuel + (n + 1)) (spaces (n + 1) ++ rest) as ps cur true = formatLoop pf fuel rest as (ps ++ [cur]) [] false := by
  have : spaces (n + 1) ++ rest = 32 :: (spaces n ++ rest) := by simp [spaces, List.replicate_succ]
  rw [this, ← Nat.add_assoc]
  simp only [formatLoop]
  simp [spaces_step]

/-- Words, each followed by that many spaces and one more; the last word followed by any number of spaces. -/
structure Format where
  before : Nat
  words : List (Word × Nat)
  last : Word
  after : Nat

def Format.fmt (f : Format) : Bytes :=
  spaces f.before ++ ((f.words.map fun w => fmtAll w.1.pieces ++ spaces (w.2 + 1)).flatten ++ (fmtAll f.last.pieces ++ spaces f.after))

def Format.args (f : Format) : List Arg := (f.words.map fun w => argsAll w.1.pieces).flatten ++ argsAll f.last.pieces

/-- What is meant. -/
def Format.params (f : Format) : List Bytes := (f.words.map fun w => textAll w.1.pieces) ++ [textAll f.last.pieces]

def Format.Ok (f : Format) : Prop := (∀ w ∈ f.words, ∀ x ∈ w.1.pieces, x.Ok) ∧ ∀ x ∈ f.last.pieces, x.Ok

def steps (ws : List (Word × Nat)) : Nat := (ws.map fun w => w.1.pieces.length + (w.2 + 1)).sum

theorem words_step {pf : Printf} (hpf : Prints pf) (ws : List (Word × Nat)) (hx : ∀ w ∈ ws, ∀ x ∈ w.1.pieces, x.Ok) (fuel : Nat)
    (rest : Bytes) (as : List Arg) (ps : List Bytes) :
    formatLoop pf (fuel + steps ws) ((ws.map fun w => fmtAll w.1.pieces ++ spaces (w.2 + 1)).flatten ++ rest)
        ((ws.map fun w => argsAll w.1.pieces).flatten ++ as) ps [] false =
      formatLoop pf fuel rest as (ps ++ ws.map fun w => textAll w.1.pieces) [] false := by
  induction ws generalizing ps with
  | nil => simp [steps]
  | cons w ws ih =>
    have hs : fuel + steps (w :: ws) = (fuel + steps ws) + (w.2 + 1) + w.1.pieces.length := by
      simp only [steps, List.map_cons, List.sum_cons]; omega
    simp only [List.map_cons, List.flatten_cons, List.append_assoc]
    rw [hs, word_step hpf w.1 (hx w (by simp)), spaces_end, ih fun v hv => hx v (by simp [hv])]
    simp

theorem fmt_ne_nil (x : Piece) : 1 ≤ x.fmt.length := by cases x <;> simp [Piece.fmt]

theorem fmtAll_length (xs : List Piece) : xs.length ≤ (fmtAll xs).length := by
  induction xs with
  | nil => simp
  | cons x xs ih =>
    have := fmt_ne_nil x
    have h : (fmtAll (x :: xs)).length = x.fmt.length + (fmtAll xs).length := by simp [fmtAll]
    rw [h, List.length_cons]; omega

theorem steps_length (ws : List (Word × Nat)) :
    steps ws ≤ ((ws.map fun w => fmtAll w.1.pieces ++ spaces (w.2 + 1)).flatten).length := by
  induction ws with
  | nil => simp [steps]
  | cons w ws ih =>
    have := fmtAll_length w.1.pieces
    simp only [steps, List.map_cons, List.sum_cons, List.flatten_cons, List.length_append] at ih ⊢
    simp only [spaces, List.length_replicate]
    simp only [spaces] at ih
    omega

/-- More fuel does not hurt. -/
theorem formatLoop_end (pf : Printf) (fuel : Nat) (as : List Arg) (ps : List Bytes) (cur : Bytes) (touched : Bool) :
    formatLoop pf (fuel + 1) [0] as ps cur touched = .ok (if touched then ps ++ [cur] else ps) := by
  simp [formatLoop]

theorem format_params {pf : Printf} (hpf : Prints pf) {f : Format} (hf : f.Ok) : format pf f.fmt f.args = .ok f.params := by
  have hlen : f.fmt.length + 2 = (f.fmt.length + 2 - f.before - steps f.words - f.last.pieces.length - f.after) + f.after +
      f.last.pieces.length + steps f.words + f.before := by
    have h1 := steps_length f.words
    have h2 := fmtAll_length f.last.pieces
    have h3 : f.fmt.length = f.before + (((f.words.map fun w => fmtAll w.1.pieces ++ spaces (w.2 + 1)).flatten).length +
        ((fmtAll f.last.pieces).length + f.after)) := by
      simp only [Format.fmt, List.length_append]
      simp [spaces]
    omega
  have hrest : 2 ≤ f.fmt.length + 2 - f.before - steps f.words - f.last.pieces.length - f.after := by
    have h1 := steps_length f.words
    have h2 := fmtAll_length f.last.pieces
    have h3 : f.fmt.length = f.before + (((f.words.map fun w => fmtAll w.1.pieces ++ spaces (w.2 + 1)).flatten).length +
        ((fmtAll f.last.pieces).length + f.after)) := by
      simp only [Format.fmt, List.length_append]
      simp [spaces]
    omega
  generalize f.fmt.length + 2 - f.before - steps f.words - f.last.pieces.length - f.after = fuel at hlen hrest
  obtain ⟨fu, rfl⟩ : ∃ fu, fuel = fu + 1 := ⟨fuel - 1, by omega⟩
  rw [format, hlen, Format.fmt, Format.args]
  simp only [List.append_assoc]
  rw [spaces_step, words_step hpf _ hf.1]
  have hargs : argsAll f.last.pieces = argsAll f.last.pieces ++ [] := by simp
  rw [hargs, word_step hpf _ hf.2]
  cases h : f.after with
  | zero =>
    have : spaces 0 ++ [0] = [(0 : UInt8)] := by simp [spaces]
    rw [this, Nat.add_zero, formatLoop_end]
    simp [Format.params]
  | succ n =>
    rw [spaces_end, formatLoop_end]
    simp [Format.params]

end Verif.Redis
