import Verif.Go.SM

/-!
# `io.Reader` and `io.ReadFull`

Library code, from the documentation of package `io` and the source of `io.ReadAtLeast`; not part of /repo.
-/

namespace Verif.Io

/-- The errors a reader returns: `io.EOF` or any other. -/
inductive IoErr where
  | eof
  | other
  deriving DecidableEq, Repr

/-- An `io.Reader` with a state: a call of `Read` with a buffer of that many bytes gives the bytes it put there, an error if
there is one, and the state after it. -/
structure Reader (σ : Type) where
  read : σ → Nat → List Byte × Option IoErr × σ

/-- What a call that reads comes to. `err` is any error but `io.EOF` itself. -/
inductive Out (α : Type) where
  | ok (a : α)
  | eof
  | err
  | diverge
  deriving DecidableEq, Repr

/-- The outcome for a caller that does not look at the error. -/
def Out.res {α : Type} : Out α → Res α
  | .ok a => .ok a
  | .eof => .err
  | .err => .err
  | .diverge => .diverge

variable {σ : Type} (R : Reader σ)

/-- The loop of `io.ReadAtLeast` for a buffer of `n` bytes, of which `got` are there, with at most that many calls of `Read`.
Simplification: a reader that claims to have read more than it was asked for is not told apart. -/
def readFullLoop (n : Nat) : Nat → List Byte → σ → Out (List Byte) × σ
  | 0, got, s => if n ≤ got.length then (.ok got, s) else (.diverge, s)
  | fuel + 1, got, s =>
    if n ≤ got.length then (.ok got, s)
    else
      let (d, e, s) := R.read s (n - got.length)
      let got := got ++ d
      match e with
      | none => readFullLoop n fuel got s
      | some e =>
        if n ≤ got.length then (.ok got, s)
        else if e = .eof ∧ got = [] then (.eof, s)
        else (.err, s)

/-- `io.ReadFull`: it is `io.EOF` only if no byte was read. -/
def readFull (fuel n : Nat) (s : σ) : Out (List Byte) × σ := readFullLoop R n fuel [] s

/-- The loop of `io.ReadAll` with at most that many calls of `Read`: it collects what comes and stops at the first error,
which is none if it is `io.EOF`. `room` is the space left in the slice when it holds that many bytes; it depends on how
`append` makes slices grow. -/
def readAllLoop (room : Nat → Nat) : Nat → List Byte → σ → Out (List Byte) × σ
  | 0, _, s => (.diverge, s)
  | fuel + 1, got, s =>
    match R.read s (room got.length) with
    | (d, none, s) => readAllLoop room fuel (got ++ d) s
    | (d, some .eof, s) => (.ok (got ++ d), s)
    | (_, some .other, s) => (.err, s)

/-- `io.ReadAll`. -/
def readAll (room : Nat → Nat) (fuel : Nat) (s : σ) : Out (List Byte) × σ := readAllLoop R room fuel [] s

/-- A `bufio.Reader`: the size of its buffer, the bytes in it not yet read, the error to be returned once they are, and the
state of the reader behind it. -/
structure Buffer (σ : Type) where
  cap : Nat
  buf : List Byte
  err : Option IoErr
  src : σ

/-- `bufio.Reader.fill` of an empty buffer, with that many calls of `Read` to go; calls without bytes and without an error are
repeated, up to a hundred times. `io.ErrNoProgress` is an error other than `io.EOF`. -/
def Buffer.fill : Nat → Buffer σ → Buffer σ
  | 0, b => { b with err := some .other }
  | k + 1, b =>
    match R.read b.src b.cap with
    | (d, some e, s) => { b with buf := d, err := some e, src := s }
    | ([], none, s) => Buffer.fill k { b with src := s }
    | (d, none, s) => { b with buf := d, src := s }

/-- `bufio.Reader.ReadByte`. The loop has at most two rounds, because `fill` leaves a byte or an error. -/
def Buffer.readByte : Nat → Buffer σ → Out Byte × Buffer σ
  | 0, b => (.diverge, b)
  | k + 1, b =>
    match b.buf, b.err with
    | c :: cs, _ => (.ok c, { b with buf := cs })
    | [], some .eof => (.eof, { b with err := none })
    | [], some .other => (.err, { b with err := none })
    | [], none => Buffer.readByte k (b.fill R 100)

end Verif.Io
