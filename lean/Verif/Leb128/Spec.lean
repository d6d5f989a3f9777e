import Verif.Go.Basic

/-!
# What LEB128 means

Independent of the implementation: the number denoted by a list of seven-bit digits, least significant
first, and the shape of a well-delimited encoding.
-/

namespace Verif.Leb128

/-- The number whose base-128 digits, least significant first, are the low seven bits of the bytes. -/
def denotes : List Byte → Nat
  | [] => 0
  | b :: bs => b.toNat % 128 + 128 * denotes bs

/-- All bytes but the last have the high bit set, the last does not. -/
def Delimited (bs : List Byte) : Prop :=
  ∃ init last, bs = init ++ [last] ∧ (∀ x ∈ init, 128 ≤ x.toNat) ∧ last.toNat < 128

end Verif.Leb128
