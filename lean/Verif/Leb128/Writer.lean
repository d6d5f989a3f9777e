import Verif.Go.Writer
import Verif.Leb128.Model

/-!
# `leb128.Encode` on a `bufio.Writer`

`Verif.Leb128.encode` gives the bytes for a writer that never fails. Here the bytes go one by one to a buffered writer in
front of any other writer.
-/

namespace Verif.Leb128

open Io

variable {σ : Type} (W : Writer σ)

/-- The loop of `leb128.Encode`, after `total` bytes: the count returned, whether there is no error, and the writer after it.
-- models leb128/encode.go:7-22 -/
def encodeLoop (value : U32) (total : Nat) (w : Buffered σ) : (Nat × Bool) × Buffered σ :=
  let b : Byte := (value &&& 0b01111111#32).truncate 8
  let value' := value >>> 7
  if value' ≠ 0#32 then
    match w.writeByte W (b ||| 0b10000000#8) with
    | (false, w) => ((0, false), w)
    | (true, w) => encodeLoop value' (total + 1) w
  else
    match w.writeByte W b with
    | (false, w) => ((0, false), w)
    | (true, w) => ((total + 1, true), w)
termination_by value.toNat
decreasing_by
  rename_i h
  have h1 : (value >>> 7).toNat ≠ 0 := fun h2 => h (BitVec.eq_of_toNat_eq h2)
  simp only [BitVec.toNat_ushiftRight, Nat.shiftRight_eq_div_pow] at *
  omega

/-- `leb128.Encode`.
-- models leb128/encode.go:5-23 -/
def encodeTo (value : U32) (w : Buffered σ) : (Nat × Bool) × Buffered σ := encodeLoop W value 0 w

/-- A caller that encodes one value after the other, whatever `Encode` returns. -/
def encodeAll : List U32 → Buffered σ → List (Nat × Bool) × Buffered σ
  | [], w => ([], w)
  | v :: vs, w =>
    let (r, w) := encodeTo W v w
    let (rs, w) := encodeAll vs w
    (r :: rs, w)

end Verif.Leb128
