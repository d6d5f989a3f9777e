import Verif.Go.SM

/-!
# Text

Go strings are byte sequences: `List Byte`.
-/

namespace Verif

/-- A byte written as an ASCII character. -/
def ch (c : Char) : Byte := BitVec.ofNat 8 c.toNat

/-- An ASCII string as bytes. -/
def txt (s : String) : List Byte := s.toList.map ch

/-- `s[i]`. -/
def byteAt (s : List Byte) (i : Nat) : Res Byte :=
  match s[i]? with
  | some b => .ok b
  | none => .panic

end Verif
