import Verif.Abi.Layout

/-!
# What the layout of component values is

Independent of the code: natural numbers, no machine words, no failure. Follows the canonical ABI text.
-/

namespace Verif.Abi.Spec

/-- The least multiple of `a` that is at least `n`; `alignUp_least` shows that it is. -/
def alignUp (n a : Nat) : Nat := (n + (a - 1)) / a * a

/-- Bytes needed for the index of one of `n` cases. -/
def discBytes (n : Nat) : Nat := if n ≤ 2 ^ 8 then 1 else if n ≤ 2 ^ 16 then 2 else 4

mutual
/-- Alignment of a type in bytes. -/
def align : Ty → Nat
  | .bool | .u8 | .s8 => 1
  | .u16 | .s16 => 2
  | .u32 | .s32 | .f32 | .char | .string | .own _ | .borrow _ => 4
  | .u64 | .s64 | .f64 => 8
  | .list _ => 4
  | .record fs => alignFields fs
  | .variant cs => max (discBytes cs.length) (alignCases cs)
  | .flags ls => if ls.length ≤ 8 then 1 else if ls.length ≤ 16 then 2 else 4
  | .nil | .other => 1
/-- The largest alignment of a field. -/
def alignFields : Fields → Nat
  | .nil => 1
  | .cons _ t fs => max (align t) (alignFields fs)
/-- The largest alignment of a payload. -/
def alignCases : Cases → Nat
  | .nil => 1
  | .cons _ t _ cs => max (align t) (alignCases cs)
end

mutual
/-- Size of a type in bytes; always a multiple of its alignment. -/
def size : Ty → Nat
  | .bool | .u8 | .s8 => 1
  | .u16 | .s16 => 2
  | .u32 | .s32 | .f32 | .char | .own _ | .borrow _ => 4
  | .u64 | .s64 | .f64 | .string => 8
  | .list _ => 8
  | .record fs => alignUp (fieldsEnd fs 0) (alignFields fs)
  | .variant cs =>
    alignUp (alignUp (discBytes cs.length) (alignCases cs) + sizeCases cs) (max (discBytes cs.length) (alignCases cs))
  | .flags ls =>
    if ls.length = 0 then 0 else if ls.length ≤ 8 then 1 else if ls.length ≤ 16 then 2
    else 4 * ((ls.length + 31) / 32)
  | .nil | .other => 0
/-- First byte after the fields when the first one may start at `s`. -/
def fieldsEnd : Fields → Nat → Nat
  | .nil, s => s
  | .cons _ t fs, s => fieldsEnd fs (alignUp s (align t) + size t)
/-- The largest payload size. -/
def sizeCases : Cases → Nat
  | .nil => 0
  | .cons _ t _ cs => max (size t) (sizeCases cs)
end

/-- Offset of every field when the first one may start at `s`. -/
def offsets : Fields → Nat → List Nat
  | .nil, _ => []
  | .cons _ t fs, s => alignUp s (align t) :: offsets fs (alignUp s (align t) + size t)

/-- Offset of the payload of a variant. -/
def payloadOffset (cs : Cases) : Nat := alignUp (discBytes cs.length) (alignCases cs)

mutual
/-- The type has a layout: no field of unknown type, and between 1 and 2^24 cases in every variant (the code
refuses more). Says nothing about list elements, which do not influence the layout of the list itself. -/
def Laid : Ty → Prop
  | .nil | .other => False
  | .record fs => LaidFields fs
  | .variant cs => 1 ≤ cs.length ∧ cs.length ≤ 2 ^ 24 ∧ LaidCases cs
  | _ => True
/-- Every field has a layout. -/
def LaidFields : Fields → Prop
  | .nil => True
  | .cons _ t fs => Laid t ∧ LaidFields fs
/-- Every payload has a layout. -/
def LaidCases : Cases → Prop
  | .nil => True
  | .cons _ t _ cs => (t = .nil ∨ Laid t) ∧ LaidCases cs
end

end Verif.Abi.Spec
