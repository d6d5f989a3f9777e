import Verif.Wat.NumProps

/-!
# Whole numbers as words

What Go reads from a word as a whole number, from the documentation of `strconv.ParseInt` with base 0 (the integer literals of the
Go language) and of `strconv.Atoi`. Nothing of the model is used.
-/

namespace Verif.Wat.Spec

/-- The value of a hexadecimal or decimal digit. -/
def digitVal (b : Byte) : Nat :=
  if b.toNat ≤ 57 then b.toNat - 48 else if b.toNat ≤ 70 then b.toNat - 55 else b.toNat - 87

/-- The number with these digits; underscores do not count. -/
def value (base : Nat) (s : List Byte) : Nat :=
  s.foldl (fun n b => if b = ch '_' then n else n * base + digitVal b) 0

/-- A digit of base 8. -/
def octDigit (b : Byte) : Bool := 48 ≤ b.toNat && b.toNat ≤ 55

/-- A digit of base 2. -/
def binDigit (b : Byte) : Bool := 48 ≤ b.toNat && b.toNat ≤ 49

/-- What can follow a prefix: digits with single underscores between them and possibly one in front. -/
def Opened (d : Byte → Bool) (s : List Byte) : Prop := Numeral d s ∨ ∃ r, s = ch '_' :: r ∧ Numeral d r

/-- A whole number without a sign in the syntax of Go, and its value. -/
inductive GoNat : List Byte → Nat → Prop
  | decimal (s : List Byte) : Numeral digit s → s.head? ≠ some (ch '0') → GoNat s (value 10 s)
  | zero : GoNat (txt "0") 0
  | octal (s : List Byte) : Opened octDigit s → GoNat (ch '0' :: s) (value 8 s)
  | hex (c : Byte) (s : List Byte) : c = ch 'x' ∨ c = ch 'X' → Opened hexDigit s → GoNat (ch '0' :: c :: s) (value 16 s)
  | lettered (c : Byte) (s : List Byte) : c = ch 'o' ∨ c = ch 'O' → Opened octDigit s → GoNat (ch '0' :: c :: s) (value 8 s)
  | binary (c : Byte) (s : List Byte) : c = ch 'b' ∨ c = ch 'B' → Opened binDigit s → GoNat (ch '0' :: c :: s) (value 2 s)

/-- The same with or without a minus sign. -/
inductive GoInt : List Byte → Int → Prop
  | plain (s : List Byte) (n : Nat) : GoNat s n → GoInt s n
  | minus (s : List Byte) (n : Nat) : GoNat s n → GoInt (ch '-' :: s) (-(n : Int))

/-- Decimal digits after an optional sign, and the value. -/
inductive Whole : List Byte → Int → Prop
  | none (s : List Byte) : s ≠ [] → (∀ b ∈ s, digit b = true) → Whole s (value 10 s)
  | plus (s : List Byte) : s ≠ [] → (∀ b ∈ s, digit b = true) → Whole (ch '+' :: s) (value 10 s)
  | minus (s : List Byte) : s ≠ [] → (∀ b ∈ s, digit b = true) → Whole (ch '-' :: s) (-(value 10 s : Int))

/-- An integer constant. Lack of the parser: `i64.const` has the range of `i32.const`. -/
def ConstInt (w : List Byte) (v : Int) : Prop := GoInt w v ∧ -2 ^ 31 ≤ v ∧ v < 2 ^ 32

/-- An index. -/
def IndexInt (w : List Byte) (v : Int) : Prop := Whole w v ∧ -2 ^ 63 ≤ v ∧ v < 2 ^ 63

/-- The sign and the exponent of a NaN. -/
def nanMask (sg : List Byte) : BitVec 32 := if sg = txt "-" then 0xff800000 else 0x7f800000

/-- A floating point constant of 32 bits; `other` says what the library reads. Lacks of the parser: `nan` without anything gives the
bits of an infinity, a canonical or arithmetic NaN is always negative, and whatever follows these words is passed over. -/
inductive ConstFloat32 (other : List Byte → BitVec 32 → Prop) : List Byte → BitVec 32 → Prop
  | number (w : List Byte) (v : BitVec 32) : ¬ txt "nan" <+: w → ¬ txt "-nan" <+: w → other w v → ConstFloat32 other w v
  | nan (sg r : List Byte) : sg = [] ∨ sg = txt "-" → r.head? ≠ some (ch ':') → ConstFloat32 other (sg ++ (txt "nan" ++ r)) (nanMask sg)
  | colon (sg : List Byte) : sg = [] ∨ sg = txt "-" → ConstFloat32 other (sg ++ txt "nan:") (nanMask sg)
  | canonical (sg r : List Byte) : sg = [] ∨ sg = txt "-" → ConstFloat32 other (sg ++ (txt "nan:canonical" ++ r)) 0xffc00000
  | arithmetic (sg r : List Byte) : sg = [] ∨ sg = txt "-" → ConstFloat32 other (sg ++ (txt "nan:arithmetic" ++ r)) 0xffc00000
  | payload (sg s : List Byte) (n : Nat) : sg = [] ∨ sg = txt "-" → GoNat s n → n < 2 ^ 32 →
      ConstFloat32 other (sg ++ (txt "nan:" ++ s)) (BitVec.ofNat 32 n ||| nanMask sg)

example : GoNat (txt "0x_fF") 255 := .hex _ (txt "_fF") (.inl rfl) (.inr ⟨txt "fF", rfl, .more _ _ (by decide) (.one _ (by decide))⟩)
example : GoInt (txt "-017") (-15) := .minus _ _ (.octal (txt "17") (.inl (.more _ _ (by decide) (.one _ (by decide)))))
example : Whole (txt "+017") 17 := .plus (txt "017") (by decide) (by decide)
example : ConstFloat32 (fun _ _ => False) (txt "-nan:0x400000") 0xffc00000 :=
  .payload (txt "-") (txt "0x400000") 0x400000 (.inr rfl) (.hex _ (txt "400000") (.inl rfl) (.inl (.more _ _ (by decide)
    (.more _ _ (by decide) (.more _ _ (by decide) (.more _ _ (by decide) (.more _ _ (by decide) (.one _ (by decide))))))))) (by decide)

end Verif.Wat.Spec
