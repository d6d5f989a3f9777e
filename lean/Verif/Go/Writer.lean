import Verif.Go.Basic

/-!
# `io.Writer` and `bufio.Writer`

Library code, from the documentation and the source of package `bufio`; not part of /repo.
-/

namespace Verif.Io

/-- An `io.Writer` with a state: a call of `Write` gives the number of bytes written, whether there was an error, and the
state after it. -/
structure Writer (σ : Type) where
  write : σ → List Byte → Nat × Bool × σ

/-- A `bufio.Writer`: the size of its buffer, the bytes in it, whether a write has failed, and the state of the writer
behind it. -/
structure Buffered (σ : Type) where
  cap : Nat
  buf : List Byte
  failed : Bool
  sink : σ

variable {σ : Type} (W : Writer σ)

/-- `bufio.Writer.Flush`: whether it succeeds, and the writer after it. Fewer bytes written than there were is an error too;
those written leave the buffer. -/
def Buffered.flush (b : Buffered σ) : Bool × Buffered σ :=
  if b.failed then (false, b)
  else if b.buf = [] then (true, b)
  else
    let (n, e, s) := W.write b.sink b.buf
    if e || n < b.buf.length then (false, { b with buf := b.buf.drop n, failed := true, sink := s })
    else (true, { b with buf := [], sink := s })

/-- `bufio.Writer.WriteByte`. -/
def Buffered.writeByte (c : Byte) (b : Buffered σ) : Bool × Buffered σ :=
  if b.failed then (false, b)
  else if b.buf.length < b.cap then (true, { b with buf := b.buf ++ [c] })
  else
    match b.flush W with
    | (false, b) => (false, b)
    | (true, b) => (true, { b with buf := b.buf ++ [c] })

end Verif.Io
