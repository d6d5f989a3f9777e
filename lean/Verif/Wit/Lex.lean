import Verif.Go.Text

/-!
# The WIT lexer

Models `wit/token` and `wit/lex`, and of the Go library `utf8.DecodeRuneInString`. Of the Unicode tables behind
`unicode.IsLetter`, `unicode.IsDigit` and `unicode.IsSpace` only the ASCII part is modelled. The rest is a parameter, the
class `Unicode`, so that every theorem holds whatever those tables say about other characters.
-/

namespace Verif.Wit

/-- `TokenType`. The type `nil`, which no lexer returns, is left out.
-- models wit/token/types.go:3-73 -/
inductive TokenType where
  | openParen | closeParen | openBrace | closeBrace | comma | colon | semicolon | at | minus | plus | greater | less | equal
  | period | slash | underscore | star | rightArrow | string | whitespace | lineComment | blockComment | endOfStream | use
  | type | func | u8 | u16 | u32 | u64 | s8 | s16 | s32 | s64 | float32 | float64 | char | resource | own | borrow | record
  | flags | variant | enum | union | bool | option | result | future | stream | list | as | from | tuple | constructor | with
  | static | interface | world | import | export | package | include | id | integer | explicitId
  deriving DecidableEq, Repr

/-- `Token`.
-- models wit/token/token.go:3-9 -/
structure Token where
  type : TokenType
  position : Nat
  column : Nat
  line : Nat
  capture : List Byte
  deriving DecidableEq, Repr

/-! ## Characters -/

/-- What the tables of package `unicode` say about the characters from U+0080 on.
-- models the Go library functions unicode.IsLetter, unicode.IsDigit, unicode.IsSpace, for those characters left open -/
class Unicode where
  letter : Nat → Bool
  digit : Nat → Bool
  space : Nat → Bool

/-- A character as a number. -/
def rn (c : Char) : Nat := c.toNat

section
variable [Unicode]

/-- `unicode.IsLetter`.
-- models the Go library function, as called in wit/lex/lexer.go:330, 334 -/
def isLetter (r : Nat) : Bool :=
  if r < 128 then (65 ≤ r && r ≤ 90) || (97 ≤ r && r ≤ 122) else Unicode.letter r

/-- `unicode.IsDigit`.
-- models the Go library function, as called in wit/lex/lexer.go:173-174, 334 -/
def isDigit (r : Nat) : Bool := if r < 128 then 48 ≤ r && r ≤ 57 else Unicode.digit r

/-- `unicode.IsSpace`.
-- models the Go library function, as called in wit/lex/lexer.go:87-88 -/
def isSpace (r : Nat) : Bool := if r < 128 then r = 32 || (9 ≤ r && r ≤ 13) else Unicode.space r

/-- `isKeyLikeStart`.
-- models wit/lex/lexer.go:329-331 -/
def isKeyLikeStart (r : Nat) : Bool := isLetter r || r == rn '_' || r == rn '-'

/-- `isKeyLikeContinue`.
-- models wit/lex/lexer.go:333-335 -/
def isKeyLikeContinue (r : Nat) : Bool := isLetter r || isDigit r || r == rn '-'

end

/-- How many bytes a character with this first byte takes, and between which bounds its second byte has to be. No entry
for a byte that begins no character of more than one byte.
-- models the tables first and acceptRanges of the Go library package unicode/utf8 -/
def lead (b : Byte) : Option (Nat × Nat × Nat) :=
  let n := b.toNat
  if 0xC2 ≤ n ∧ n ≤ 0xDF then some (2, 0x80, 0xBF)
  else if n = 0xE0 then some (3, 0xA0, 0xBF)
  else if n = 0xED then some (3, 0x80, 0x9F)
  else if 0xE1 ≤ n ∧ n ≤ 0xEF then some (3, 0x80, 0xBF)
  else if n = 0xF0 then some (4, 0x90, 0xBF)
  else if 0xF1 ≤ n ∧ n ≤ 0xF3 then some (4, 0x80, 0xBF)
  else if n = 0xF4 then some (4, 0x80, 0x8F)
  else none

/-- A continuation byte. -/
def isTail (b : Byte) : Bool := 0x80 ≤ b.toNat && b.toNat ≤ 0xBF

/-- `utf8.RuneError`. -/
def runeError : Nat := 0xFFFD

/-- The first character of a text whose first byte is not ASCII and has this entry in the table.
-- models the Go library function utf8.DecodeRuneInString, its part for such a byte -/
def decodeWide (entry : Option (Nat × Nat × Nat)) (b : Byte) (w : List Byte) : Nat × Nat :=
  match entry, w with
  | some (2, lo, hi), c :: _ =>
    if lo ≤ c.toNat ∧ c.toNat ≤ hi then (b.toNat % 32 * 64 + c.toNat % 64, 2) else (runeError, 1)
  | some (3, lo, hi), c :: d :: _ =>
    if (lo ≤ c.toNat ∧ c.toNat ≤ hi) ∧ isTail d then (b.toNat % 16 * 4096 + c.toNat % 64 * 64 + d.toNat % 64, 3)
    else (runeError, 1)
  | some (4, lo, hi), c :: d :: e :: _ =>
    if (lo ≤ c.toNat ∧ c.toNat ≤ hi) ∧ isTail d ∧ isTail e then
      (b.toNat % 8 * 262144 + c.toNat % 64 * 4096 + d.toNat % 64 * 64 + e.toNat % 64, 4)
    else (runeError, 1)
  | _, _ => (runeError, 1)

/-- `utf8.DecodeRuneInString`: the first character and the bytes it takes. Where the bytes are no character the answer
is `RuneError` and one byte.
-- models the Go library function, as called in wit/lex/lexer.go:312, 320 -/
def decode : List Byte → Nat × Nat
  | [] => (runeError, 0)
  | b :: w => if b.toNat < 0x80 then (b.toNat, 1) else decodeWide (lead b) b w

/-! ## The lexer -/

/-- `Lexer`.
-- models wit/lex/lexer.go:16-23 -/
structure Lexer where
  input : List Byte
  offset : Nat
  position : Nat
  column : Nat
  line : Nat
  peekToken : Option Token
  deriving DecidableEq, Repr

/-- `New`.
-- models wit/lex/lexer.go:33-40 -/
def Lexer.new (input : List Byte) : Lexer := ⟨input, 0, 0, 0, 0, none⟩

/-- `Clone`. A lexer is a value here, so the clone is the lexer. Shared is only the peeked token, which is never changed.
-- models wit/lex/lexer.go:42-53 -/
def Lexer.clone (l : Lexer) : Lexer := ⟨l.input, l.offset, l.position, l.column, l.line, l.peekToken⟩

/-- The loop that counts lines and columns: line and column after the bytes.
-- models wit/lex/lexer.go:240-248 -/
def advance : List Byte → Nat × Nat → Nat × Nat
  | [], lc => lc
  | b :: bs, (line, column) => advance bs (if b = ch '\n' then (line + 1, 0) else (line, column + 1))

/-- `Lexer.capture`: the bytes from `offset` to `position`, where those are the bounds of a slice.
-- models wit/lex/lexer.go:256-258 -/
def capture : SM Lexer (List Byte) := fun l =>
  if ¬ (l.offset ≤ l.position ∧ l.position ≤ l.input.length) then (.panic, l)
  else (.ok ((l.input.drop l.offset).take (l.position - l.offset)), l)

/-- `Lexer.token`.
-- models wit/lex/lexer.go:228-254 -/
def makeToken (ty : TokenType) : SM Lexer Token := fun l =>
  if ¬ (l.offset ≤ l.position ∧ l.position ≤ l.input.length) then (.panic, l)
  else
    let capture := (l.input.drop l.offset).take (l.position - l.offset)
    let lc := advance capture (l.line, l.column)
    (.ok ⟨ty, l.offset, l.column, l.line, capture⟩, { l with line := lc.1, column := lc.2, offset := l.position })

/-- `Lexer.peekRune`.
-- models wit/lex/lexer.go:308-314 -/
def peekRune : SM Lexer (Option Nat) := fun l =>
  if l.position ≥ l.input.length then (.ok none, l) else (.ok (some (decode (l.input.drop l.position)).1), l)

/-- `Lexer.readRune`.
-- models wit/lex/lexer.go:316-323 -/
def readRune : SM Lexer (Option Nat) := fun l =>
  if l.position ≥ l.input.length then (.ok none, l)
  else
    let r := decode (l.input.drop l.position)
    (.ok (some r.1), { l with position := l.position + r.2 })

/-- `Lexer.expectIf`, and `Lexer.expect` for the test of being that one character. `Unwrap` of a missing character gives
an error.
-- models wit/lex/lexer.go:288-306 -/
def expectIf (f : Nat → Bool) : SM Lexer Unit := do
  match ← readRune with
  | some r => if f r then pure () else SM.fail
  | none => SM.fail

/-- `Lexer.eatIf`, and `Lexer.eat` for the test of being that one character.
-- models wit/lex/lexer.go:260-286 -/
def eatIf (f : Nat → Bool) : SM Lexer Bool := do
  match ← peekRune with
  | none => pure false
  | some p =>
    if f p then do
      expectIf f
      pure true
    else pure false

/-- `Lexer.eat`.
-- models wit/lex/lexer.go:274-286 -/
def eat (c : Char) : SM Lexer Bool := eatIf (· == rn c)

/-- A loop `for l.eatIf(f).Unwrap() {}`, of at most `n` rounds; `lexNext` gives a bound that is never reached
(`eatLoop_at`).
-- models wit/lex/lexer.go:88-89, 95-96, 157-158, 164-165, 174-176 -/
def eatLoop (f : Nat → Bool) : Nat → SM Lexer Unit
  | 0 => SM.lift .diverge
  | n + 1 => do
    if ← eatIf f then eatLoop f n else pure ()

/-- The loop over a block comment, of at most `n` rounds; `lexNext` gives a bound that is never reached (`blockLoop_at`).
-- models wit/lex/lexer.go:101-117 -/
def blockLoop : Nat → Nat → SM Lexer Unit
  | 0, _ => SM.lift .diverge
  | n + 1, depth =>
    if depth > 0 then do
      match ← readRune with
      | none => SM.fail
      | some r =>
        if r = rn '/' then do
          if ← eat '*' then blockLoop n (depth + 1) else blockLoop n depth
        else if r = rn '*' then do
          if ← eat '/' then blockLoop n (depth - 1) else blockLoop n depth
        else blockLoop n depth
    else pure ()

/-- `keywordMap`.
-- models wit/lex/lexer.go:183-226 -/
def keywordMap : List (List Byte × TokenType) :=
  [(txt "use", .use), (txt "type", .type), (txt "func", .func), (txt "u8", .u8), (txt "u16", .u16), (txt "u32", .u32),
   (txt "u64", .u64), (txt "s8", .s8), (txt "s16", .s16), (txt "s32", .s32), (txt "s64", .s64), (txt "float32", .float32),
   (txt "float64", .float64), (txt "char", .char), (txt "resource", .resource), (txt "own", .own), (txt "borrow", .borrow),
   (txt "record", .record), (txt "flags", .flags), (txt "variant", .variant), (txt "enum", .enum), (txt "union", .union),
   (txt "bool", .bool), (txt "string", .string), (txt "option", .option), (txt "result", .result), (txt "future", .future),
   (txt "stream", .stream), (txt "list", .list), (txt "_", .underscore), (txt "as", .as), (txt "from", .from),
   (txt "static", .static), (txt "interface", .interface), (txt "tuple", .tuple), (txt "world", .world),
   (txt "import", .import), (txt "export", .export), (txt "package", .package), (txt "constructor", .constructor),
   (txt "include", .include), (txt "with", .with)]

/-- The type of a word.
-- models wit/lex/lexer.go:167-170 -/
def wordType (c : List Byte) : TokenType := ((keywordMap.find? (·.1 == c)).map (·.2)).getD .id

/-- The cases of `next` that only name a type. They are cases of different characters, so that their order, and that of
the cases of `/`, `-` and `%` between them, is of no matter.
-- models wit/lex/lexer.go:121-146, 153-154 -/
def singles : List (Nat × TokenType) :=
  [(rn '=', .equal), (rn ',', .comma), (rn ':', .colon), (rn '.', .period), (rn ';', .semicolon), (rn '(', .openParen),
   (rn ')', .closeParen), (rn '{', .openBrace), (rn '}', .closeBrace), (rn '<', .less), (rn '>', .greater), (rn '*', .star),
   (rn '@', .at), (rn '+', .plus)]

/-- The entry for a character. -/
def single (r : Nat) : Option TokenType := (singles.find? (·.1 == r)).map (·.2)

section
variable [Unicode]

/-- `Lexer.next`.
-- models wit/lex/lexer.go:78-181 -/
def lexNext : SM Lexer Token := do
  let n := (← SM.get).input.length + 1
  match ← readRune with
  | none => makeToken .endOfStream
  | some r =>
    if isSpace r then do
      eatLoop isSpace n
      makeToken .whitespace
    else if r = rn '/' then do
      if ← eat '/' then do
        eatLoop (· != rn '\n') n
        makeToken .lineComment
      else if ← eat '*' then do
        blockLoop n 1
        makeToken .blockComment
      else makeToken .slash
    else match single r with
    | some ty => makeToken ty
    | none =>
      if r = rn '-' then do
        if ← eat '>' then makeToken .rightArrow else makeToken .minus
      else if r = rn '%' then do
        if ← eatIf isKeyLikeStart then do
          eatLoop isKeyLikeContinue n
          makeToken .explicitId
        else makeToken .explicitId
      else if isKeyLikeStart r then do
        eatLoop isKeyLikeContinue n
        makeToken (wordType (← capture))
      else if isDigit r then do
        eatLoop isDigit n
        makeToken .integer
      else SM.fail

/-- `Lexer.Peek`. `Unwrap` of an error panics, and `Peek` does not recover.
-- models wit/lex/lexer.go:67-76 -/
def peekTok : SM Lexer Token := fun l =>
  match l.peekToken with
  | some t => (.ok t, l)
  | none =>
    match lexNext l with
    | (.ok t, l) => (.ok t, { l with peekToken := some t })
    | (.err, l) => (.panic, l)
    | r => r

/-- `Lexer.Next`.
-- models wit/lex/lexer.go:55-65 -/
def nextTok : SM Lexer Token := fun l =>
  match l.peekToken with
  | none => lexNext l
  | some t => (.ok t, { l with peekToken := none })

end

end Verif.Wit
