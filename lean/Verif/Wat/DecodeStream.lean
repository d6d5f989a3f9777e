import Verif.Go.Reader
import Verif.Wat.Decode

/-!
# `wat/decoder.go` on an `io.Reader`

`Verif.Wat.Decode` takes the reader for its bytes and whether it fails. Here `Decode` calls `Read` of a reader with a state of
its own.
-/

namespace Verif.Wat

open Io

/-- `NewDecoder(own).Decode(reader)`: `fuel` bounds the calls of `Read`, `n` the loops and the recursion of the parser.
`room` is the space in the slice of `io.ReadAll` when it holds that many bytes.
-- models wat/decoder.go:27-38 -/
def decodeFrom {σ : Type} (R : Reader σ) (room : Nat → Nat) (fuel : Nat) (lib : Lib) (n : Nat) (s : σ) : Res ApiDirective := do
  let text ← (readAll R room fuel s).1.res
  let d ← parseText lib n text
  decodeDirective d

end Verif.Wat
