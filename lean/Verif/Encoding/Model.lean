import Verif.Go.Basic

/-!
# Model of package `encoding`

The codecs of `golang.org/x/text` are outside the repository; `TextEnc.encode` and `TextEnc.decode` state their
documented behaviour. A Go string is a Lean `String`, that is, a sequence of Unicode scalar values: strings that are
not valid UTF-8 are not modelled.
-/

namespace Verif.Encoding

/-- UTF-8 encoding of a scalar value.
-- models golang.org/x/text/encoding/unicode `UTF8` (encoder), used by encoding/utf8.go:11 -/
def utf8Char (c : Char) : List Byte :=
  let n := c.toNat
  if n < 0x80 then [BitVec.ofNat 8 n]
  else if n < 0x800 then [BitVec.ofNat 8 (0xC0 + n / 64), BitVec.ofNat 8 (0x80 + n % 64)]
  else if n < 0x10000 then
    [BitVec.ofNat 8 (0xE0 + n / 4096), BitVec.ofNat 8 (0x80 + n / 64 % 64), BitVec.ofNat 8 (0x80 + n % 64)]
  else
    [BitVec.ofNat 8 (0xF0 + n / 262144), BitVec.ofNat 8 (0x80 + n / 4096 % 64), BitVec.ofNat 8 (0x80 + n / 64 % 64),
      BitVec.ofNat 8 (0x80 + n % 64)]

/-- U+FFFD, written for malformed input. -/
def replacement : Char := '�'

/-- A number as a character; U+FFFD if it is not a scalar value. -/
def charOf (n : Nat) : Char := if n.isValidChar then Char.ofNat n else replacement

/-- Continuation byte. -/
def isCont (b : Byte) : Bool := 0x80 ≤ b.toNat && b.toNat < 0xC0

/-- The first character of a non-empty byte string and the number of further bytes it takes. A byte that does not
start a well-formed sequence counts as U+FFFD.
-- models golang.org/x/text/encoding/unicode `UTF8` (decoder), used by encoding/utf8.go:11. The
documentation of `encoding.Decoder` says that bytes which cannot be transcoded become U+FFFD; how many bytes one
replacement stands for is an assumption no theorem uses. -/
def utf8Head (b0 : Byte) (rest : List Byte) : Char × Nat :=
  let n0 := b0.toNat
  if n0 < 0x80 then (charOf n0, 0)
  else if n0 < 0xE0 then
    match rest with
    | b1 :: _ => if 0xC2 ≤ n0 ∧ isCont b1 then (charOf ((n0 - 0xC0) * 64 + (b1.toNat - 0x80)), 1) else (replacement, 0)
    | _ => (replacement, 0)
  else if n0 < 0xF0 then
    match rest with
    | b1 :: b2 :: _ =>
      let n := (n0 - 0xE0) * 4096 + (b1.toNat - 0x80) * 64 + (b2.toNat - 0x80)
      if isCont b1 ∧ isCont b2 ∧ 0x800 ≤ n ∧ n.isValidChar then (charOf n, 2) else (replacement, 0)
    | _ => (replacement, 0)
  else
    match rest with
    | b1 :: b2 :: b3 :: _ =>
      let n := (n0 - 0xF0) * 262144 + (b1.toNat - 0x80) * 4096 + (b2.toNat - 0x80) * 64 + (b3.toNat - 0x80)
      if isCont b1 ∧ isCont b2 ∧ isCont b3 ∧ 0x10000 ≤ n ∧ n.isValidChar then (charOf n, 3) else (replacement, 0)
    | _ => (replacement, 0)

/-- UTF-8 decoding; the first argument counts the bytes still belonging to the previous character.
-- models golang.org/x/text/encoding/unicode `UTF8` (decoder), used by encoding/utf8.go:11 -/
def utf8Decode : Nat → List Byte → List Char
  | _, [] => []
  | 0, b0 :: rest => (utf8Head b0 rest).1 :: utf8Decode (utf8Head b0 rest).2 rest
  | k + 1, _ :: rest => utf8Decode k rest

/-- UTF-16 code units of a scalar value.
-- models golang.org/x/text/encoding/unicode `UTF16` (encoder), used by encoding/utf16.go:14,24 -/
def utf16Units (c : Char) : List Nat :=
  let n := c.toNat
  if n < 0x10000 then [n] else [0xD800 + (n - 0x10000) / 1024, 0xDC00 + (n - 0x10000) % 1024]

/-- Bytes of a code unit.
-- models the `Endianness` argument, encoding/utf16.go:14,24 -/
def unitBytes (big : Bool) (u : Nat) : List Byte :=
  if big then [BitVec.ofNat 8 (u / 256), BitVec.ofNat 8 u] else [BitVec.ofNat 8 u, BitVec.ofNat 8 (u / 256)]

/-- Code units from bytes; an odd last byte is dropped and reported by `none`. -/
def bytesUnits (big : Bool) : List Byte → List (Option Nat)
  | a :: b :: rest =>
    (some (if big then a.toNat * 256 + b.toNat else b.toNat * 256 + a.toNat)) :: bytesUnits big rest
  | [_] => [none]
  | [] => []

/-- The first character of a non-empty sequence of code units, and whether it takes a second one. A lone surrogate or
an odd last byte becomes U+FFFD.
-- models golang.org/x/text/encoding/unicode `UTF16` (decoder, IgnoreBOM), used by encoding/utf16.go:14,24 -/
def utf16Head (u : Option Nat) (rest : List (Option Nat)) : Char × Nat :=
  match u with
  | none => (replacement, 0)
  | some u =>
    if u < 0xD800 ∨ 0xE000 ≤ u then (charOf u, 0)
    else match rest with
      | some v :: _ =>
        if u < 0xDC00 ∧ 0xDC00 ≤ v ∧ v < 0xE000 then (charOf (0x10000 + (u - 0xD800) * 1024 + (v - 0xDC00)), 1)
        else (replacement, 0)
      | _ => (replacement, 0)

/-- UTF-16 decoding of code units; the first argument counts the units still belonging to the previous character.
-- models golang.org/x/text/encoding/unicode `UTF16` (decoder, IgnoreBOM), used by encoding/utf16.go:14,24 -/
def utf16Decode : Nat → List (Option Nat) → List Char
  | _, [] => []
  | 0, u :: rest => (utf16Head u rest).1 :: utf16Decode (utf16Head u rest).2 rest
  | k + 1, _ :: rest => utf16Decode k rest

/-- The library encodings in use: `unicode.UTF8`, `unicode.UTF16` (little or big endian), `charmap.ISO8859_1`. -/
inductive TextEnc where
  | utf8 | utf16 (big : Bool) | latin1
  deriving DecidableEq, Repr

/-- ISO 8859-1 has the character.
-- models charmap.ISO8859_1.EncodeRune, used by abi/io/store.go:257 -/
def latin1Has (c : Char) : Bool := c.toNat < 256

/-- `codec.Encode` through `encoding.EncodeString`.
-- models encoding/codec.go:38-43 and encoding/helper.go:13-20. The encoder's writer is not closed there, which for
valid strings leaves nothing behind. ISO 8859-1 refuses characters it does not have. -/
def TextEnc.encode : TextEnc → String → Res (List Byte)
  | .utf8, s => .ok (s.toList.flatMap utf8Char)
  | .utf16 big, s => .ok (s.toList.flatMap fun c => (utf16Units c).flatMap (unitBytes big))
  | .latin1, s => if s.toList.all latin1Has then .ok (s.toList.map fun c => BitVec.ofNat 8 c.toNat) else .err

/-- `codec.Decode` through `encoding.DecodeString`.
-- models encoding/codec.go:45-50 and encoding/helper.go:26-33 -/
def TextEnc.decode : TextEnc → List Byte → Res String
  | .utf8, bs => .ok (String.ofList (utf8Decode 0 bs))
  | .utf16 big, bs => .ok (String.ofList (utf16Decode 0 (bytesUnits big bs)))
  | .latin1, bs => .ok (String.ofList (bs.map fun b => charOf b.toNat))

/-- `codec`; `name` is an `Encoding`, a Go string.
-- models encoding/codec.go:31-36, 52-62 -/
structure Codec where
  name : String
  enc : TextEnc
  alignment : Nat
  runeSize : Nat
  deriving DecidableEq

/-- `UTF8`.
-- models encoding/utf8.go:6 -/
def UTF8 : String := "utf-8"
/-- `UTF16`.
-- models encoding/utf16.go:8 -/
def UTF16 : String := "utf-16"
/-- `UTF16BE`.
-- models encoding/utf16.go:9 -/
def UTF16BE : String := "utf-16-be"
/-- `UTF16LE`.
-- models encoding/utf16.go:10 -/
def UTF16LE : String := "utf-16-le"
/-- `Latin1`.
-- models encoding/latin1.go:6 -/
def Latin1 : String := "latin1"
/-- `Latin1Utf16`.
-- models encoding/latin1.go:7 -/
def Latin1Utf16 : String := "latin1+utf16"

/-- `NewUTF8`.
-- models encoding/utf8.go:9-16 -/
def newUTF8 : Codec := ⟨UTF8, .utf8, 1, 1⟩
/-- `NewUTF16`.
-- models encoding/utf16.go:13-21 -/
def newUTF16 : Codec := ⟨UTF16, .utf16 false, 2, 2⟩
/-- `NewUTF16WithEndianess`.
-- models encoding/utf16.go:23-35; `big` stands for `unicode.BigEndian` -/
def newUTF16WithEndianess (big : Bool) : Codec := ⟨if big then UTF16BE else UTF16LE, .utf16 big, 2, 2⟩
/-- `NewLatin1`.
-- models encoding/latin1.go:10-17 -/
def newLatin1 : Codec := ⟨Latin1, .latin1, 2, 1⟩
/-- `NewLatin1Utf16`.
-- models encoding/latin1.go:19-26 -/
def newLatin1Utf16 : Codec := ⟨Latin1Utf16, .latin1, 2, 1⟩

/-- `factory`: the map from names to codecs, as the function Go's map lookup computes.
-- models encoding/factory.go:14-16 -/
abbrev Factory := String → Option Codec

/-- `NewFactory`: later codecs overwrite earlier ones of the same name.
-- models encoding/factory.go:29-37 -/
def newFactory (cs : List Codec) : Factory :=
  cs.foldl (fun m c => fun n => if n = c.name then some c else m n) (fun _ => none)

/-- `DefaultFactory`.
-- models encoding/factory.go:18-27 -/
def defaultFactory : Factory :=
  newFactory [newUTF16, newUTF8, newLatin1, newLatin1Utf16, newUTF16WithEndianess true, newUTF16WithEndianess false]

/-- `factory.Get`.
-- models encoding/factory.go:41-52 -/
def Factory.get (f : Factory) (n : String) : Res Codec :=
  match f n with
  | some c => .ok c
  | none => .err

end Verif.Encoding
