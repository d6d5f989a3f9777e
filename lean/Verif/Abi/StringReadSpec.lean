import Verif.Go.Basic

/-!
# Which bytes write a string

A specification apart from the model of the codecs. UTF-8 is that of Lean's own `String`.
-/

namespace Verif.Abi.Spec

/-- A way to write characters as bytes. -/
inductive Script where
  | utf8 | utf16le | utf16be | latin1
  deriving DecidableEq, Repr

/-- The script of a string whose length word is `n`, in a call using the encoding `enc`: with `latin1+utf16` the
highest bit of the length word tells which of the two is meant. -/
def script (enc : String) (n : Nat) : Script :=
  if enc = "utf-8" then .utf8
  else if enc = "utf-16-be" then .utf16be
  else if enc = "latin1" ∨ enc = "latin1+utf16" ∧ n < 2 ^ 31 then .latin1
  else .utf16le

/-- The UTF-16 code units of a character: its number, or a high and a low surrogate carrying ten bits each of what
exceeds `0x10000`. -/
def Units16 (c : Char) (us : List Nat) : Prop :=
  (c.toNat < 0x10000 ∧ us = [c.toNat]) ∨
  ∃ hi lo, hi < 0x400 ∧ lo < 0x400 ∧ c.toNat = 0x10000 + hi * 0x400 + lo ∧ us = [0xD800 + hi, 0xDC00 + lo]

/-- The bytes are the code units, each the two bytes `lo`, `hi` in the order of the script. -/
inductive UnitBytes (big : Bool) : List Nat → List Byte → Prop
  | nil : UnitBytes big [] []
  | cons (lo hi : Byte) (us : List Nat) (bs : List Byte) : UnitBytes big us bs →
      UnitBytes big ((hi.toNat * 256 + lo.toNat) :: us) (if big then hi :: lo :: bs else lo :: hi :: bs)

/-- The bytes of one character. -/
def CharBytes : Script → Char → List Byte → Prop
  | .utf8, c, bs => bs.map (·.toNat) = (String.utf8EncodeChar c).map (·.toNat)
  | .utf16le, c, bs => ∃ us, Units16 c us ∧ UnitBytes false us bs
  | .utf16be, c, bs => ∃ us, Units16 c us ∧ UnitBytes true us bs
  | .latin1, c, bs => ∃ b : Byte, bs = [b] ∧ c.toNat = b.toNat

/-- The bytes write the characters, one after the other. -/
inductive Writes (k : Script) : List Char → List Byte → Prop
  | nil : Writes k [] []
  | cons (c : Char) (bs : List Byte) (cs : List Char) (rest : List Byte) : CharBytes k c bs → Writes k cs rest →
      Writes k (c :: cs) (bs ++ rest)

end Verif.Abi.Spec
