import Verif.Go.Reader
import Verif.Leb128.Model

/-!
# `leb128.Decode` on a `bufio.Reader`

`Verif.Leb128.decode` takes the input for a list of bytes. Here the bytes come from a buffered reader in front of any other
reader.
-/

namespace Verif.Leb128

open Io

variable {σ : Type} (R : Reader σ)

/-- The loop of `leb128.Decode` on a buffered reader, for at most that many rounds.
-- models leb128/decode.go:38-49 -/
def decodeBufLoop : Nat → U32 → Nat → Nat → Buffer σ → Out (U32 × Nat) × Buffer σ
  | 0, _, _, _, b => (.diverge, b)
  | k + 1, val, shift, total, b =>
    match b.readByte R 2 with
    | (.ok c, b) =>
      let total := total + 1
      let val := val ||| ((c &&& 0b01111111#8).zeroExtend 32 <<< shift)
      if c &&& 0b10000000#8 = 0#8 then (.ok (val, total), b)
      else decodeBufLoop k val (shift + 7) total b
    | (.eof, b) => (.eof, b)
    | (.err, b) => (.err, b)
    | (.diverge, b) => (.diverge, b)

/-- `leb128.Decode`.
-- models leb128/decode.go:34-51 -/
def decodeBuf (fuel : Nat) (b : Buffer σ) : Out (U32 × Nat) × Buffer σ := decodeBufLoop R fuel 0#32 0 0 b

end Verif.Leb128
