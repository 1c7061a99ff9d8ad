import Verif.Redis.Spec
/-!
# Requests: `RedisRequestProtocol` (codec/redis/redis_protocol.cc) and `redis::Formatter` (client/redis/formatter.cc)
-/

namespace Verif.Redis

/-- `snprintf(..., "%u", static_cast<uint32_t>(n))`; with the type, CR and LF it is at most 13 bytes of the 16 of `tmp_buff`. -/
def fmtU (n : Nat) : Bytes := dec (n % 2 ^ 32)

/-- `RedisRequestProtocol::EncodeImpl` (redis_protocol.cc:35-50): what is appended to the builder. -/
def encodeParams (ps : List Bytes) : Bytes :=
  42 :: fmtU ps.length ++ crlf ++ (ps.map fun p => 36 :: fmtU p.length ++ crlf ++ p ++ crlf).flatten

/-- `ZeroCopyEncode` (lines 21-33); `none`: the first of no parameters is used. -/
def encodeRequest (resp : Bool) (ps : List Bytes) : Option Bytes :=
  if resp then some (encodeParams ps) else ps.head?

/-! ## `Formatter::FormatCommand` (formatter.cc:23-180) -/

/-- An argument of a variadic function: a pointer to a string that ends with NUL (without it), a pointer to memory, a size,
an `int`, an `int64_t`, a `double`. -/
inductive Arg where
  | cstr (s : Bytes)
  | mem (m : Bytes)
  | size (n : Nat)
  | int (i : Int)
  | int64 (i : Int)
  | double (i : Int)
  deriving Repr, DecidableEq

/-- The outcome: the parameters; −1; undefined behaviour. -/
inductive F where
  | ok (ps : List Bytes)
  | fail
  | ub
  deriving Repr, DecidableEq

def isDigit (c : UInt8) : Bool := 48 ≤ c && c < 58

/-- `strchr(intfmts, c) != nullptr` with `intfmts = "diouxX"`: the terminating NUL belongs to the string. -/
def inInt (c : UInt8) : Bool := [100, 105, 111, 117, 120, 88, 0].contains c

/-- `strchr("eEfFgGaA", c) != nullptr`. -/
def inDouble (c : UInt8) : Bool := [101, 69, 102, 70, 103, 71, 97, 65, 0].contains c

/-- `if (*p != '\0' && *p == x) p++`. -/
def skipOne (x : UInt8) : Bytes → Bytes
  | c :: p => if c ≠ 0 && c = x then p else c :: p
  | [] => []

/-- `while (*p != '\0' && isdigit(*p)) p++`. -/
def skipDigits : Bytes → Bytes
  | c :: p => if c ≠ 0 && isDigit c then skipDigits p else c :: p
  | [] => []

/-- Flags, width and precision (lines 70-84). -/
def skipFlags (p : Bytes) : Bytes :=
  let p := skipDigits (skipOne 43 (skipOne 32 (skipOne 45 (skipOne 48 (skipOne 35 p)))))
  match p with
  | 46 :: p => skipDigits p
  | p => p

/-- What `va_arg` is called with. -/
inductive Want where
  | int | int64 | double | none
  deriving DecidableEq

/-- The conversion (lines 89-143): the position and what is taken from `ap`; `none`: −1 is returned. Reading beyond the
terminator does not happen here: every step forward is after a character that is not NUL. -/
def conversion (p : Bytes) : Option (Bytes × Want) :=
  match p with
  | [] => some ([], .none)
  | c :: q =>
    if inInt c then some (p, .int)
    else if inDouble c then some (p, .double)
    else if c = 104 then
      match q with
      | 104 :: r => if r.headD 0 ≠ 0 && inInt (r.headD 0) then some (r, .int) else none
      | r => if r.headD 0 ≠ 0 && inInt (r.headD 0) then some (r, .int) else none
    else if c = 108 then
      match q with
      | 108 :: r => if r.headD 0 ≠ 0 && inInt (r.headD 0) then some (r, .int64) else none
      | r => if r.headD 0 ≠ 0 && inInt (r.headD 0) then some (r, .int64) else none
    else some (p, .none)

/-- `va_arg(ap, ...)`; taking an argument of another type, or one that is not there, is undefined. -/
def take : Want → List Arg → Option (List Arg)
  | .int, .int _ :: as => some as
  | .int64, .int64 _ :: as => some as
  | .double, .double _ :: as => some as
  | .none, as => some as
  | _, _ => none

/-- What `vsnprintf` prints for a format and the arguments that follow; `none`: undefined, or an error (then `len` is
`SIZE_MAX`, `std::string(buf, len)` throws). -/
abbrev Printf := Bytes → List Arg → Option Bytes

/-- The loop; `c` is what is left of the format with its terminating NUL. -/
def formatLoop (pf : Printf) : Nat → Bytes → List Arg → List Bytes → Bytes → Bool → F
  | 0, _, _, _, _, _ => .ub
  | fuel + 1, c, as, ps, cur, touched =>
    match c with
    | [] => .ub
    | x :: rest =>
      if x = 0 then .ok (if touched then ps ++ [cur] else ps)
      else if x ≠ 37 || rest.headD 0 = 0 then
        if x = 32 then
          if touched then formatLoop pf fuel rest as (ps ++ [cur]) [] false
          else formatLoop pf fuel rest as ps cur false
        else formatLoop pf fuel rest as ps (cur ++ [x]) true
      else
        match rest with
        | [] => .ub
        | k :: rest' =>
          if k = 115 then
            match as with
            | .cstr s :: as => formatLoop pf fuel rest' as ps (cur ++ s) true
            | _ => .ub
          else if k = 98 then
            match as with
            | .mem m :: .size n :: as => if n ≤ m.length then formatLoop pf fuel rest' as ps (cur ++ m.take n) true else .ub
            | _ => .ub
          else if k = 37 then formatLoop pf fuel rest' as ps (cur ++ [37]) true
          else
            match conversion (skipFlags rest) with
            | none => .fail
            | some (p, w) =>
              match take w as with
              | none => .ub
              | some as' =>
                if c.length - p.length + 1 < 14 then
                  match pf (c.take (c.length - p.length + 1)) as with
                  | none => .ub
                  | some s =>
                    match p with
                    | [] => .ub
                    | _ :: p' => formatLoop pf fuel p' as' ps (cur ++ s) true
                else formatLoop pf fuel rest' as' ps cur true

/-- `FormatCommand` for a request without parameters. -/
def format (pf : Printf) (f : Bytes) (as : List Arg) : F := formatLoop pf (f.length + 2) (f ++ [0]) as [] [] false

end Verif.Redis
