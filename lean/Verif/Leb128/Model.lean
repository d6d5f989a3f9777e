import Verif.Go.Basic

/-!
# Model of package `leb128`

Streams are byte lists; a decoder returns the value, the number of bytes read and the unread rest.
-/

namespace Verif.Leb128

/-- `leb128.Encode`, the bytes written to the writer.
-- models leb128/encode.go:5-23 (the writer is taken never to fail, see Verif.Leb128.Writer; the returned count is the length). -/
def encode (value : U32) : List Byte :=
  let b : Byte := (value &&& 0b01111111#32).truncate 8
  let value' := value >>> 7
  if value' ≠ 0#32 then
    (b ||| 0b10000000#8) :: encode value'
  else
    [b]
termination_by value.toNat
decreasing_by
  rename_i h
  have h1 : (value >>> 7).toNat ≠ 0 := fun h2 => h (BitVec.eq_of_toNat_eq h2)
  simp only [BitVec.toNat_ushiftRight, Nat.shiftRight_eq_div_pow] at *
  omega

/-- Loop of `leb128.DecodeReader`. An exhausted reader returns `n == 0`.
-- models leb128/decode.go:15-30 (simplified: the reader delivers a byte or end of input, never a byte
together with an error, see Verif.Binary.Stream; the shift counter is unbounded, it is a Go `int`). -/
def decodeReaderLoop (val : U32) (shift total : Nat) : List Byte → Res (U32 × Nat × List Byte)
  | [] => .err
  | b :: rest =>
    let total := total + 1
    let val := val ||| ((b &&& 0b01111111#8).zeroExtend 32 <<< shift)
    if b &&& 0b10000000#8 = 0#8 then .ok (val, total, rest)
    else decodeReaderLoop val (shift + 7) total rest

/-- `leb128.DecodeReader`.
-- models leb128/decode.go:9-32 -/
def decodeReader (bs : List Byte) : Res (U32 × Nat × List Byte) := decodeReaderLoop 0#32 0 0 bs

/-- Loop of `leb128.Decode`.
-- models leb128/decode.go:38-49 -/
def decodeLoop (val : U32) (shift total : Nat) : List Byte → Res (U32 × Nat × List Byte)
  | [] => .err
  | b :: rest =>
    let total := total + 1
    let val := val ||| ((b &&& 0b01111111#8).zeroExtend 32 <<< shift)
    if b &&& 0b10000000#8 = 0#8 then .ok (val, total, rest)
    else decodeLoop val (shift + 7) total rest

/-- `leb128.Decode`.
-- models leb128/decode.go:34-51 -/
def decode (bs : List Byte) : Res (U32 × Nat × List Byte) := decodeLoop 0#32 0 0 bs

/-- Loop of `leb128.DecodeSlice`; running off the end of the slice just leaves the loop.
-- models leb128/decode.go:57-65 -/
def decodeSliceLoop (val : U32) (shift total : Nat) : List Byte → U32 × Nat
  | [] => (val, total)
  | b :: rest =>
    let total := total + 1
    let val := val ||| ((b &&& 0b01111111#8).zeroExtend 32 <<< shift)
    if b &&& 0b10000000#8 = 0#8 then (val, total)
    else decodeSliceLoop val (shift + 7) total rest

/-- `leb128.DecodeSlice`; its error result is always nil.
-- models leb128/decode.go:53-67 -/
def decodeSlice (bs : List Byte) : Res (U32 × Nat) := .ok (decodeSliceLoop 0#32 0 0 bs)

end Verif.Leb128
