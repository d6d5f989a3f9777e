import Verif.Go.Strconv
import Verif.Go.Ieee

/-!
# Floating point numbers in Go

`strconv.ParseFloat` and the conversions from integers and between the floating point types, written down from their
documentation and from `strconv/atof.go`. They are not part of /repo.
-/

namespace Verif.Strconv

open Ieee

/-- The distance from the largest number that is not above `n` smallest positive numbers to the next one. -/
def step (f : Format) (n : Nat) : Nat := if n < 2 ^ (f.frac + 1) then 1 else 2 ^ (n.log2 - f.frac)

/-- The bits of the largest number that is not above `n` smallest positive numbers. -/
def floorBits (f : Format) (n : Nat) : Nat :=
  if n < 2 ^ (f.frac + 1) then n else (n.log2 - f.frac) * 2 ^ f.frac + n / 2 ^ (n.log2 - f.frac)

/-- The bits of the number nearest to `a / d` smallest positive numbers, a tie decided for the even one: "IEEE 754 unbiased
rounding" in the words of the documentation. -/
def round (f : Format) (a d : Nat) : Nat :=
  let n := a / d
  let b := floorBits f n
  let r := 2 * (a - n / step f n * step f n * d)
  if r < step f n * d then b else if step f n * d < r then b + 1 else b + b % 2

/-- What the loop of `readFloat` has read: the number with all digits, how many of them were after the point, whether there
was a point and whether there were digits. -/
structure Mantissa where
  value : Nat
  places : Nat
  point : Bool
  digits : Bool

/-- The loop of `readFloat` over the mantissa; the rest is what it stops at. Simplification: `readFloat` keeps 16 or 19
digits and whether further ones are not 0; here all are kept. -/
def mantissaLoop (hex : Bool) : List Byte → Mantissa → Mantissa × List Byte
  | [], m => (m, [])
  | c :: cs, m =>
    if c = ch '_' then mantissaLoop hex cs m
    else if c = ch '.' then if m.point then (m, c :: cs) else mantissaLoop hex cs { m with point := true }
    else match digitOf c with
      | none => (m, c :: cs)
      | some d =>
        if d ≥ (if hex then 16 else 10) then (m, c :: cs)
        else mantissaLoop hex cs ⟨m.value * (if hex then 16 else 10) + d, if m.point then m.places + 1 else m.places, m.point, true⟩

/-- The loop of `readFloat` over the digits of the exponent. Simplification: `readFloat` stops counting at 10000, which
only a literal with thousands of digits can make a difference to. -/
def exponentLoop : List Byte → Nat → Nat × List Byte
  | [], e => (e, [])
  | c :: cs, e =>
    if c = ch '_' then exponentLoop cs e
    else if ch '0' ≤ c ∧ c ≤ ch '9' then exponentLoop cs (e * 10 + (c.toNat - 48))
    else (e, c :: cs)

/-- The exponent after its letter, if it is all of the rest. -/
def exponent (s : List Byte) : Option Int :=
  let digits := if s.head? = some (ch '+') ∨ s.head? = some (ch '-') then s.drop 1 else s
  match digits with
  | [] => none
  | c :: _ =>
    if ch '0' ≤ c ∧ c ≤ ch '9' then
      match exponentLoop digits 0 with
      | (e, []) => some (if s.head? = some (ch '-') then -(e : Int) else e)
      | _ => none
    else none

/-- `m * base ^ e` as a numerator and a denominator. -/
def scaled (base m : Nat) (e : Int) : Nat × Nat := if 0 ≤ e then (m * base ^ e.toNat, 1) else (m, base ^ (-e).toNat)

/-- Whether `readFloat` takes the number for a hexadecimal one. -/
def isHexFloat (s : List Byte) : Bool := 3 ≤ s.length ∧ s.head? = some (ch '0') ∧ s[1]?.map lower = some (ch 'x')

/-- `readFloat` of a number without a sign: the number as numerator and denominator. A hexadecimal number needs an
exponent. -/
def readFloat (s : List Byte) : Option (Nat × Nat) :=
  let hex := isHexFloat s
  let (m, rest) := mantissaLoop hex (if hex then s.drop 2 else s) ⟨0, 0, false, false⟩
  let e : Option Int := match rest with
    | [] => if hex then none else some 0
    | c :: cs => if lower c = (if hex then ch 'p' else ch 'e') then exponent cs else none
  if m.digits = false then none
  else if s.contains (ch '_') ∧ ¬ underscoreOK s then none
  else e.map fun e => if hex then scaled 2 m.value (e - 4 * m.places) else scaled 10 m.value (e - m.places)

/-- Capital letters made small. -/
def small (s : List Byte) : List Byte := s.map fun c => if ch 'A' ≤ c ∧ c ≤ ch 'Z' then c + 32 else c

/-- The bits `ParseFloat` finds: infinities, not a number, or the nearest number with the sign; a number that is not near one
of the format is an error. -/
def parseFloat (f : Format) (s : List Byte) : Res Nat :=
  let negative : Bool := s.head? = some (ch '-')
  let signed : Bool := s.head? = some (ch '+') ∨ s.head? = some (ch '-')
  let body := if signed then s.drop 1 else s
  if small body = txt "inf" ∨ small body = txt "infinity" then .ok (f.signed negative f.infinity)
  else if signed = false ∧ small body = txt "nan" then .ok (f.infinity + 2 ^ (f.frac - 1))
  else match readFloat body with
    | none => .err
    | some (a, d) =>
      let b := round f (a * 2 ^ f.scale) d
      if b < f.infinity then .ok (f.signed negative b) else .err

/-- The conversion of a `float32` to `float64`: every number keeps its value. -/
def widen (b : Nat) : Nat :=
  let negative : Bool := single.signBit ≤ b
  let m := b % single.signBit
  if m < single.infinity then double.signed negative (round double (single.magnitude m * 2 ^ (double.scale - single.scale)) 1)
  else if m = single.infinity then double.signed negative double.infinity
  else double.signed negative (double.infinity + 2 ^ (double.frac - 1))

/-- The conversion of an integer: the nearest number. -/
def ofInt (f : Format) (z : Int) : Nat := f.signed (z < 0) (round f (z.natAbs * 2 ^ f.scale) 1)

example : parseFloat single (txt "0x1.8p+1") = .ok 0x40400000 := by decide +kernel
example : parseFloat single (txt "-0x1p-149") = .ok 0x80000001 := by decide +kernel
example : parseFloat single (txt "0x1.fffffep+127") = .ok 0x7f7fffff := by decide +kernel
example : parseFloat single (txt "0x1.ffffffp+127") = .err := by decide +kernel
example : parseFloat single (txt "0x1.8") = .err := by decide +kernel
example : parseFloat single (txt "0.1") = .ok 0x3dcccccd := by decide +kernel
example : parseFloat double (txt "0.1") = .ok 0x3fb999999999999a := by decide +kernel
example : parseFloat single (txt "-Inf") = .ok 0xff800000 := by decide +kernel
example : parseFloat single (txt "-nan") = .err := by decide +kernel
example : widen 0x3dcccccd = 0x3fb99999a0000000 := by decide +kernel
example : ofInt single 16777217 = 0x4b800000 := by decide +kernel
example : ofInt single (-7) = 0xc0e00000 := by decide +kernel

end Verif.Strconv
