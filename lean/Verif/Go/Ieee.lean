import Mathlib.Algebra.Order.Field.Rat
import Mathlib.Algebra.Order.Group.Abs

/-!
# Binary floating point numbers

What the bits of a floating point number mean, and which number is nearest to a rational one: IEEE 754, sections 3.4 and
4.3.1. This is a specification; nothing here is taken from /repo.
-/

namespace Verif.Ieee

/-- A binary format: the number of bits of the fraction and of the exponent. -/
structure Format where
  frac : Nat
  expo : Nat

/-- 32 bits. -/
def single : Format := ⟨23, 8⟩
/-- 64 bits. -/
def double : Format := ⟨52, 11⟩

/-- The smallest positive number of the format is `2 ^ -scale`; all of its numbers are multiples of it. -/
def Format.scale (f : Format) : Nat := 2 ^ (f.expo - 1) + f.frac - 2

/-- The bits of infinity: all bits of the exponent, none of the fraction. Larger numbers are no numbers. -/
def Format.infinity (f : Format) : Nat := (2 ^ f.expo - 1) * 2 ^ f.frac

/-- The sign bit. -/
def Format.signBit (f : Format) : Nat := 2 ^ (f.frac + f.expo)

/-- The bits with a sign. -/
def Format.signed (f : Format) (negative : Bool) (b : Nat) : Nat := if negative then f.signBit + b else b

/-- How many times the smallest positive number the bits without the sign stand for: the fraction if the exponent is 0,
otherwise the fraction with a leading 1, shifted by the exponent less 1. Of infinity this is the power of two next to the
largest number. -/
def Format.magnitude (f : Format) (b : Nat) : Nat :=
  if b / 2 ^ f.frac = 0 then b % 2 ^ f.frac else (2 ^ f.frac + b % 2 ^ f.frac) * 2 ^ (b / 2 ^ f.frac - 1)

/-- The number with these bits, the sign apart. -/
def Format.value (f : Format) (b : Nat) : ℚ := f.magnitude b / 2 ^ f.scale

/-- `b` are the bits of the number nearest to `q`; if two are as near, of the one whose last bit is 0. Infinity is the
nearest one if the power of two next to the largest number is. -/
def Format.Nearest (f : Format) (q : ℚ) (b : Nat) : Prop :=
  b ≤ f.infinity ∧ ∀ c ≤ f.infinity, c ≠ b →
    |f.value b - q| < |f.value c - q| ∨ |f.value b - q| = |f.value c - q| ∧ b % 2 = 0

end Verif.Ieee
