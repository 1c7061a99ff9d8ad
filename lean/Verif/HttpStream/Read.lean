/-!
# Readers of HTTP streams

/repo/trpc/stream/http/http_stream.h (`HttpReadStream`), /repo/trpc/stream/http/http_stream.cc:44-80, in fibers (`blocking_`)

* `Write` and `WriteEof` are called by the fiber that reads the connection, one after the other; `Close(kErrorBit)` by whoever sees the connection break; `Read` and `Close()` by the handler.
* The blocking buffer is used as C112 says: bytes in order, within the capacity; a `Cut` returns when there are bytes enough or after `Stop`, or when its time is over. `AppendAlways` may be interrupted after every byte.
* Every load and store of `state_` is a step. In C++ they are plain loads and stores; lost updates of `state_ |= bit` are not modelled.
-/

namespace Verif.HttpStream.Read

inductive Res where
  | ok (x : List Nat)
  | network
  | eof
  | timeout
deriving DecidableEq, Repr

/-- The handler: in no call; in `Cut`; has the bytes; in `Close()`, before `Stop`. -/
inductive C where
  | idle
  | cut (n : Nat)
  | got (x : List Nat) (n : Nat)
  | close
deriving DecidableEq, Repr

/-- The fiber of the connection: between calls; in `AppendAlways`; in `WriteEof`, before `Stop`. -/
inductive P where
  | idle
  | push (x : List Nat)
  | eof
deriving DecidableEq, Repr

structure S where
  cap : Nat
  content : List Nat := []
  stop : Bool := false
  /-- `state_`: `kWriteEndBit`, `kEofBit`, `kErrorBit` -/
  wend : Bool := false
  eof : Bool := false
  err : Bool := false
  c : C := .idle
  p : P := .idle
  /-- `Close(kErrorBit)` before `Stop` -/
  e : Bool := false
  /-- ghost: bytes received; bytes returned by successful reads; bytes taken by a read that failed; results; the handler called `Close()` -/
  put : List Nat := []
  rd : List Nat := []
  lost : List Nat := []
  res : List Res := []
  user : Bool := false
deriving DecidableEq, Repr

inductive Step : S → S → Prop
  /-- `Write` (http_stream.cc:44-54) -/
  | write {s : S} (x : List Nat) (h : s.p = .idle) (hs : s.wend = false ∧ s.eof = false ∧ s.err = false) : Step s { s with p := .push x }
  | push {s : S} (b : Nat) (x : List Nat) (h : s.p = .push (b :: x)) (hc : s.content.length < s.cap) : Step s { s with content := s.content ++ [b], put := s.put ++ [b], p := .push x }
  | pushed {s : S} (h : s.p = .push []) : Step s { s with p := .idle }
  /-- `WriteEof` (http_stream.h:134), `Close` (http_stream.cc:56-61) -/
  | eof {s : S} (h : s.p = .idle) (hw : s.wend = false) : Step s { s with wend := true, p := .eof }
  | eofStop {s : S} (h : s.p = .eof) : Step s { s with stop := true, p := .idle }
  /-- `Close(kErrorBit)` -/
  | error {s : S} (h : s.e = false) : Step s { s with err := true, e := true }
  | errorStop {s : S} (h : s.e = true) : Step s { s with stop := true, e := false }
  /-- `Close()` -/
  | close {s : S} (h : s.c = .idle) : Step s { s with eof := true, c := .close, user := true }
  | closeStop {s : S} (h : s.c = .close) : Step s { s with stop := true, c := .idle }
  /-- `Read` (http_stream.h:55-84) -/
  | read {s : S} (n : Nat) (h : s.c = .idle) :
      Step s (if s.err then { s with res := s.res ++ [.network] } else if s.eof then { s with res := s.res ++ [.eof] } else { s with c := .cut n })
  | cut {s : S} (n : Nat) (h : s.c = .cut n) (hc : n ≤ s.content.length ∨ s.stop = true) : Step s { s with c := .got (s.content.take n) n, content := s.content.drop n }
  | timeout {s : S} (n : Nat) (h : s.c = .cut n) : Step s { s with c := .idle, res := s.res ++ [.timeout] }
  | got {s : S} (x : List Nat) (n : Nat) (h : s.c = .got x n) :
      Step s (if s.err then { s with c := .idle, res := s.res ++ [.network], lost := s.lost ++ x }
        else { s with c := .idle, eof := s.eof || decide (x.length < n), res := s.res ++ [.ok x], rd := s.rd ++ x })

inductive Reach (cap : Nat) : S → Prop
  | init : Reach cap { cap := cap }
  | step {s s' : S} (h : Reach cap s) (hs : Step s s') : Reach cap s'

end Verif.HttpStream.Read
