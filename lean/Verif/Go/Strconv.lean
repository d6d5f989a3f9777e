import Verif.Go.Text

/-!
# Package `strconv`

The parts of Go's standard library the text parsers call to read whole numbers, written down from its
documentation and source (`strconv/atoi.go`). They are not part of /repo. An error carries no value here: every caller
drops the value that comes with an error.
-/

namespace Verif.Strconv

/-- `lower`: `c | ('x' - 'X')`. -/
def lower (c : Byte) : Byte := c ||| 0x20

/-- The digit a character stands for in bases up to 36. -/
def digitOf (c : Byte) : Option Nat :=
  if ch '0' ≤ c ∧ c ≤ ch '9' then some (c.toNat - 48)
  else if ch 'a' ≤ lower c ∧ lower c ≤ ch 'z' then some ((lower c).toNat - 97 + 10)
  else none

/-- The loop of `ParseUint` over the characters after the prefix, with the value so far. An underscore is passed over
when `under` is set. Simplification: the checks against 64 bit overflow are left out; the value is a number of any size
here, so that they say the same as the comparison with `max`, which is below `2^64` for every caller. -/
def digitLoop (base max : Nat) (under : Bool) : List Byte → Nat → Res Nat
  | [], n => .ok n
  | c :: cs, n =>
    if under ∧ c = ch '_' then digitLoop base max under cs n
    else match digitOf c with
      | none => .err
      | some d =>
        if d ≥ base then .err
        else if n * base + d > max then .err
        else digitLoop base max under cs (n * base + d)

/-- The base of a number and the characters after the prefix, for base 0. -/
def prefixBase (s : List Byte) : Nat × List Byte :=
  if s.head? ≠ some (ch '0') then (10, s)
  else if 3 ≤ s.length ∧ s[1]?.map lower = some (ch 'b') then (2, s.drop 2)
  else if 3 ≤ s.length ∧ s[1]?.map lower = some (ch 'o') then (8, s.drop 2)
  else if 3 ≤ s.length ∧ s[1]?.map lower = some (ch 'x') then (16, s.drop 2)
  else (8, s.drop 1)

/-- The last character `underscoreOK` saw: the beginning or something that is neither a digit nor an underscore, a digit
(or prefix), or an underscore. -/
inductive Saw where
  | other | digit | under
  deriving DecidableEq

/-- The loop of `underscoreOK`. -/
def underLoop (hex : Bool) : List Byte → Saw → Bool
  | [], saw => saw ≠ .under
  | c :: cs, saw =>
    if (ch '0' ≤ c ∧ c ≤ ch '9') ∨ (hex ∧ ch 'a' ≤ lower c ∧ lower c ≤ ch 'f') then underLoop hex cs .digit
    else if c = ch '_' then if saw = .digit then underLoop hex cs .under else false
    else if saw = .under then false
    else underLoop hex cs .other

/-- `underscoreOK` of a number without a sign. -/
def underscoreOK (s : List Byte) : Bool :=
  let p := s[1]?.map lower
  if s.head? = some (ch '0') ∧ (p = some (ch 'b') ∨ p = some (ch 'o') ∨ p = some (ch 'x')) then
    underLoop (p = some (ch 'x')) (s.drop 2) .digit
  else underLoop false s .other

/-- `ParseUint(s, 0, bits)`. -/
def parseUint (s : List Byte) (bits : Nat) : Res Nat :=
  if s = [] then .err
  else do
    let p := prefixBase s
    let n ← digitLoop p.1 (2 ^ bits - 1) true p.2 0
    if s.contains (ch '_') ∧ ¬ underscoreOK s then .err else .ok n

/-- `ParseInt(s, 0, bits)`. -/
def parseInt (s : List Byte) (bits : Nat) : Res Int :=
  match s with
  | [] => .err
  | b :: t => do
    let neg := b = ch '-'
    let un ← parseUint (if b = ch '+' ∨ b = ch '-' then t else s) bits
    if neg then if un > 2 ^ (bits - 1) then .err else .ok (-(un : Int))
    else if un ≥ 2 ^ (bits - 1) then .err else .ok (un : Int)

/-- `Atoi(s)` with 64 bit integers: a sign and decimal digits only. -/
def atoi (s : List Byte) : Res Int :=
  match s with
  | [] => .err
  | b :: t => do
    let digits := if b = ch '+' ∨ b = ch '-' then t else s
    if digits = [] then .err
    else do
      let un ← digitLoop 10 (2 ^ 64 - 1) false digits 0
      if b = ch '-' then if un > 2 ^ 63 then .err else .ok (-(un : Int))
      else if un ≥ 2 ^ 63 then .err else .ok (un : Int)

example : parseUint (txt "0x1_F") 32 = .ok 31 := by decide
example : parseUint (txt "4294967296") 32 = .err := by decide
example : parseUint (txt "010") 32 = .ok 8 := by decide
example : parseInt (txt "-2147483648") 32 = .ok (-2147483648) := by decide
example : atoi (txt "+12") = .ok 12 := by decide

end Verif.Strconv
