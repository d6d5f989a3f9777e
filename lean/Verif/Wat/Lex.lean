import Verif.Go.Text

/-!
# Model of package `wat/lex`
-/

namespace Verif.Wat

/-- `token.Type`; `Keyword` is never made.
-- models wat/token/token.go:3-20 -/
inductive TokenType where
  | lineComment | blockComment | whitespace | openParen | closeParen | string | id | reserved | integer | float
  | endOfStream | module | component
  deriving DecidableEq, Repr

/-- `token.Token`.
-- models wat/token/token.go:22-28 -/
structure Token where
  type : TokenType
  position : Nat
  column : Nat
  line : Nat
  capture : List Byte
  deriving DecidableEq, Repr

/-! ## Character classes -/

/-- `isSpace`.
-- models wat/lex/lexer.go:670-682 -/
def isSpace (b : Byte) : Bool :=
  b = ch ' ' || b = ch '\t' || b = ch '\n' || b = 0x0c || b = ch '\r' || b = 0x0b

/-- `isDigit`.
-- models wat/lex/lexer.go:695-697 -/
def isDigit (b : Byte) : Bool := ch '0' ≤ b && b ≤ ch '9'

/-- `isHex`.
-- models wat/lex/lexer.go:684-693 -/
def isHex (b : Byte) : Bool := isDigit b || (ch 'a' ≤ b && b ≤ ch 'f') || (ch 'A' ≤ b && b ≤ ch 'F')

/-- `idCharMap`.
-- models wat/lex/lexer.go:626-650 -/
def idCharMap : List Byte :=
  [ch '!', ch '#', ch '$', ch '%', ch '&', ch '\'', ch '*', ch '+', ch '-', ch '.', ch '/', ch ':', ch '<', ch '=',
   ch '>', ch '?', ch '@', ch '\\', ch '^', ch '_', ch '`', ch '|', ch '~']

/-- `isIdChar`.
-- models wat/lex/lexer.go:652-668 -/
def isIdChar (b : Byte) : Bool :=
  if idCharMap.contains b then true
  else if isSpace b then false
  else (ch '0' ≤ b && b ≤ ch '9') || (ch 'A' ≤ b && b ≤ ch 'Z') || (ch 'a' ≤ b && b ≤ ch 'z')

/-- `not(chars...)`.
-- models wat/lex/lexer.go:699-708 -/
def notIn (chars : List Byte) (b : Byte) : Bool := !chars.contains b

/-! ## Rules -/

/-- `Node` with its edges; the node an edge leads to is given by its number.
-- models wat/lex/dfa.go:7-41 -/
structure Node where
  edges : List ((Byte → Bool) × Nat)
  final : Bool := false

/-- `Dfa`: its nodes, the first is the start.
-- models wat/lex/dfa.go:43-45 -/
structure Dfa where
  nodes : List Node

/-- The node with that number. -/
def Dfa.node (d : Dfa) (i : Nat) : Node := d.nodes[i]?.getD { edges := [] }

/-- `Rule`: a `DfaRule` or a `StringRule`.
-- models wat/lex/dfa.go:47-50, wat/lex/string.go:7-10, wat/lex/lexeme.go:9-13 -/
inductive Rule where
  | dfa (d : Dfa) (ty : TokenType)
  | str (s : List Byte) (ty : TokenType)

/-- `Rule.Type`.
-- models wat/lex/dfa.go:52-54, wat/lex/string.go:12-14 -/
def Rule.type : Rule → TokenType
  | .dfa _ ty => ty
  | .str _ ty => ty

/-- `Rule.Check`.
-- models wat/lex/dfa.go:56-63, wat/lex/string.go:16-21 -/
def Rule.check (r : Rule) (b : Byte) : Bool :=
  match r with
  | .dfa d _ => (d.node 0).edges.any fun e => e.1 b
  | .str s _ => s.head? = some b

/-- `Lexeme`: the rule and the current node (a nil `current` is the start) or the position in the string.
-- models wat/lex/dfa.go:69-72, wat/lex/string.go:27-30 -/
structure Lexeme where
  rule : Rule
  state : Nat

/-- `Lexeme.Eat`; `none` is the false result, after which the lexeme is as before.
-- models wat/lex/dfa.go:78-91, wat/lex/string.go:36-45 -/
def Lexeme.eat (l : Lexeme) (b : Byte) : Option Lexeme :=
  match l.rule with
  | .dfa d _ => ((d.node l.state).edges.find? fun e => e.1 b).map fun e => { l with state := e.2 }
  | .str s _ => if s[l.state]? = some b then some { l with state := l.state + 1 } else none

/-- `Lexeme.Accepted`.
-- models wat/lex/dfa.go:93-95, wat/lex/string.go:47-49 -/
def Lexeme.accepted (l : Lexeme) : Bool :=
  match l.rule with
  | .dfa d _ => (d.node l.state).final
  | .str s _ => l.state ≥ s.length

/-- `whitespace`.
-- models wat/lex/lexer.go:208-227 -/
def whitespaceDfa : Dfa := ⟨[
  { edges := [(isSpace, 1)] },
  { edges := [(isSpace, 1)], final := true }]⟩

/-- `lineComment`.
-- models wat/lex/lexer.go:229-258 -/
def lineCommentDfa : Dfa := ⟨[
  { edges := [((· == ch ';'), 1)] },
  { edges := [((· == ch ';'), 2)] },
  { edges := [((· == ch '\n'), 3), (notIn [ch '\n'], 2)] },
  { edges := [], final := true }]⟩

/-- `blockComment`.
-- models wat/lex/lexer.go:260-299 -/
def blockCommentDfa : Dfa := ⟨[
  { edges := [((· == ch '('), 1)] },
  { edges := [((· == ch ';'), 2)] },
  { edges := [((· == ch ';'), 3), (notIn [ch ';'], 2)] },
  { edges := [((· == ch ')'), 4), ((· == ch ';'), 3), (notIn [ch ')', ch ';'], 2)] },
  { edges := [], final := true }]⟩

/-- `str`.
-- models wat/lex/lexer.go:301-322 -/
def strDfa : Dfa := ⟨[
  { edges := [((· == ch '"'), 1)] },
  { edges := [((· == ch '"'), 2), (notIn [ch '"'], 1)] },
  { edges := [], final := true }]⟩

/-- `reserved`.
-- models wat/lex/lexer.go:324-339 -/
def reservedDfa : Dfa := ⟨[
  { edges := [(isIdChar, 1)] },
  { edges := [(isIdChar, 1)], final := true }]⟩

/-- `identifier`.
-- models wat/lex/lexer.go:605-624 -/
def identifierDfa : Dfa := ⟨[
  { edges := [((· == ch '$'), 1)] },
  { edges := [(isIdChar, 2)] },
  { edges := [(isIdChar, 2)], final := true }]⟩

/-- The rules of `New`. The last two come from a map, whose order is not fixed; that the order does not
matter is `map_order`.
-- models wat/lex/lexer.go:27-49 -/
def rules : List Rule :=
  [.dfa whitespaceDfa .whitespace, .dfa lineCommentDfa .lineComment, .dfa blockCommentDfa .blockComment,
   .dfa strDfa .string, .dfa identifierDfa .id, .dfa reservedDfa .reserved,
   .str [ch '('] .openParen, .str [ch ')'] .closeParen]

/-! ## Numbers -/

/-- `sign`.
-- models wat/lex/lexer.go:341-349 -/
def sign (s : List Byte) (i : Nat) : Nat × Bool :=
  match s[i]? with
  | none => (i, false)
  | some b => if b = ch '+' || b = ch '-' then (i + 1, true) else (i, false)

/-- The loops of `num` and `frac` (`stop` is false) and of `hexnum` and `hexfrac` (`stop` is true) over `s[i:]`: what
they return at a byte that is no digit is `stop`.
-- models wat/lex/lexer.go:359-368, 378-387, 397-406, 416-425 -/
def digitsLoop (digit : Byte → Bool) (stop : Bool) : List Byte → Nat → Nat × Bool
  | [], i => (i, true)
  | b :: bs, i => if b = ch '_' then digitsLoop digit stop bs (i + 1)
    else if digit b then digitsLoop digit stop bs (i + 1)
    else (i, stop)

/-- `num`, `frac`, `hexnum` and `hexfrac`.
-- models wat/lex/lexer.go:351-426 -/
def digits (digit : Byte → Bool) (stop : Bool) (s : List Byte) (i : Nat) : Nat × Bool :=
  match s[i]? with
  | none => (i, false)
  | some b => if !digit b then (i, false) else digitsLoop digit stop (s.drop i) i

/-- `num`.
-- models wat/lex/lexer.go:351-369 -/
def num := digits isDigit false
/-- `hexnum`.
-- models wat/lex/lexer.go:371-388 -/
def hexnum := digits isHex true
/-- `frac`.
-- models wat/lex/lexer.go:390-407 -/
def frac := digits isDigit false
/-- `hexfrac`.
-- models wat/lex/lexer.go:409-426 -/
def hexfrac := digits isHex true

/-- Sign and number after an exponent letter. The index that comes with a false result is never used.
-- models wat/lex/lexer.go:448-457, 473-478, 505-514, 531-536 -/
def exponent (s : List Byte) (i : Nat) : Nat × Bool :=
  let n := sign s i
  if !n.2 then (i, false) else num s n.1

/-- Whether an exponent follows at `i`: the letter, or a dot and the letter.
-- models wat/lex/lexer.go:442-443, 499-500 -/
def exponentNext (lower upper : Byte) (s : List Byte) (i : Nat) : Res Bool := do
  let b ← byteAt s i
  let dotted ← if b = ch '.' then do
      let c ← byteAt s (i + 1)
      pure (c == upper || c == lower)
    else pure false
  pure (dotted || (b == lower || b == upper))

/-- `float`. The dot is not passed before `frac`.
-- models wat/lex/lexer.go:428-479 -/
def float (s : List Byte) (i : Nat) : Res (Nat × Bool) :=
  let n := num s i
  if !n.2 then .ok (i, false)
  else if n.1 = s.length then .ok n
  else do
    let i := n.1
    let b ← byteAt s i
    if b = ch '.' ∧ i = s.length - 1 then .ok (i + 1, true)
    else do
      let e ← exponentNext (ch 'e') (ch 'E') s i
      if e then .ok (exponent s (if b = ch '.' then i + 2 else i + 1))
      else do
        let n := frac s i
        if !n.2 then .ok (i, false)
        else if n.1 = s.length then .ok (n.1, true)
        else do
          let c ← byteAt s n.1
          if c ≠ ch 'e' ∧ c ≠ ch 'E' then .ok (n.1, false)
          else .ok (exponent s (n.1 + 1))

/-- `hexfloat`.
-- models wat/lex/lexer.go:481-537 -/
def hexfloat (s : List Byte) (i : Nat) : Res (Nat × Bool) :=
  if !(txt "0x").isPrefixOf s then .ok (i, false)
  else
    let n := hexnum s (i + 2)
    if !n.2 then .ok (i + 2, false)
    else if n.1 = s.length then .ok n
    else do
      let i := n.1
      let b ← byteAt s i
      if b = ch '.' ∧ i = s.length - 1 then .ok (i + 1, true)
      else do
        let e ← exponentNext (ch 'p') (ch 'P') s i
        if e then .ok (exponent s (if b = ch '.' then i + 2 else i + 1))
        else do
          let n := hexfrac s (i + 1)
          if !n.2 then .ok (i + 1, false)
          else if n.1 = s.length then .ok (n.1, true)
          else do
            let c ← byteAt s n.1
            if c ≠ ch 'p' ∧ c ≠ ch 'P' then .ok (n.1, false)
            else .ok (exponent s (n.1 + 1))

/-- `s` without a sign in front.
-- models wat/lex/lexer.go:544-546, 578-580 -/
def unsigned : List Byte → List Byte
  | [] => []
  | b :: s => if b = ch '+' || b = ch '-' then s else b :: s

/-- `isFloat`.
-- models wat/lex/lexer.go:539-571 -/
def isFloat (s : List Byte) : Res Bool :=
  if s.length = 0 then .ok false
  else
    let s := unsigned s
    if s = txt "inf" then .ok true
    else if s = txt "nan" then .ok true
    else if s = txt "nan:arithmetic" then .ok true
    else if s = txt "nan:canonical" then .ok true
    else if (txt "nan:0x").isPrefixOf s then .ok (hexnum (s.drop 6) 0).2
    else do
      let f ← float s 0
      if f.2 then .ok true
      else do
        let h ← hexfloat s 0
        .ok h.2

/-- `isInteger`.
-- models wat/lex/lexer.go:573-592 -/
def isInteger (s : List Byte) : Bool :=
  if s.length = 0 then false
  else
    let s := unsigned s
    if (num s 0).2 then true
    else if (txt "0x").isPrefixOf s then
      let s := s.drop 2
      let h := hexnum s 0
      if h.2 then h.1 = s.length else false
    else false

/-- `keyword`.
-- models wat/lex/lexer.go:594-602 -/
def keyword (s : List Byte) : Option TokenType :=
  if s = txt "module" then some .module
  else if s = txt "component" then some .component
  else none

/-- The type of a token with that capture.
-- models wat/lex/lexer.go:163-172 -/
def classify (ty : TokenType) (capture : List Byte) : Res TokenType :=
  if ty = .reserved then
    if isInteger capture then .ok .integer
    else do
      let f ← isFloat capture
      if f then .ok .float
      else match keyword capture with
        | some kw => .ok kw
        | none => .ok ty
  else .ok ty

/-! ## The lexer -/

/-- `Lexer`; the rules are always those of `New`, except in `ruleNext`.
-- models wat/lex/lexer.go:14-25 -/
structure Lexer where
  input : List Byte
  offset : Nat
  position : Nat
  column : Nat
  line : Nat
  peekToken : Option Token
  deriving DecidableEq, Repr

/-- `New`.
-- models wat/lex/lexer.go:32-54 -/
def Lexer.new (input : List Byte) : Lexer := ⟨input, 0, 0, 0, 0, none⟩

/-- `Clone`. A lexer is a value here, so the clone is the lexer. Shared are only the rules and tokens, which are never
changed.
-- models wat/lex/lexer.go:56-66 -/
def Lexer.clone (l : Lexer) : Lexer := ⟨l.input, l.offset, l.position, l.column, l.line, l.peekToken⟩

/-- The loop that counts lines and columns: line and column after the bytes.
-- models wat/lex/lexer.go:175-183 -/
def advance : List Byte → Nat × Nat → Nat × Nat
  | [], lc => lc
  | b :: bs, (line, column) => advance bs (if b = ch '\n' then (line + 1, 0) else (line, column + 1))

/-- `Lexer.token`.
-- models wat/lex/lexer.go:152-189 -/
def makeToken (ty : TokenType) : SM Lexer Token := fun l =>
  if ¬ (l.offset ≤ l.position ∧ l.position ≤ l.input.length) then (.panic, l)
  else
    let capture := (l.input.drop l.offset).take (l.position - l.offset)
    match classify ty capture with
    | .ok ty =>
      let lc := advance capture (l.line, l.column)
      (.ok ⟨ty, l.offset, l.column, l.line, capture⟩, { l with line := lc.1, column := lc.2, offset := l.position })
    | .err => (.err, l)
    | .panic => (.panic, l)
    | .diverge => (.diverge, l)

/-- The lexemes begun by a first byte.
-- models wat/lex/lexer.go:99-108 -/
def startLexemes (b : Byte) : List Lexeme :=
  (rules.filter (·.check b)).map fun r => ((⟨r, 0⟩ : Lexeme).eat b).getD ⟨r, 0⟩

/-- The type of the first accepted lexeme.
-- models wat/lex/lexer.go:117-122, 136-141 -/
def firstAccepted (ls : List Lexeme) : Option TokenType := (ls.find? Lexeme.accepted).map fun l => l.rule.type

/-- The loop of `next` over `input[position:]`: the type of the token or an error, and the position.
-- models wat/lex/lexer.go:114-149 -/
def scan : List Byte → Nat → List Lexeme → Res TokenType × Nat
  | [], pos, ls => (.ok ((firstAccepted ls).getD .endOfStream), pos)
  | b :: rest, pos, ls =>
    let matched := ls.filterMap (·.eat b)
    if matched.length = 0 then
      match firstAccepted ls with
      | some ty => (.ok ty, pos)
      | none => (.err, pos)
    else scan rest (pos + 1) matched

/-- `Lexer.next`.
-- models wat/lex/lexer.go:90-150, 191-206 -/
def lexNext : SM Lexer Token := fun l =>
  match l.input[l.position]? with
  | none => makeToken .endOfStream l
  | some b =>
    let l := { l with position := l.position + 1 }
    let ls := startLexemes b
    if ls.length = 0 then (.err, l)
    else
      match scan (l.input.drop l.position) l.position ls with
      | (.ok ty, p) => makeToken ty { l with position := p }
      | (.err, p) => (.err, { l with position := p })
      | (.panic, p) => (.panic, { l with position := p })
      | (.diverge, p) => (.diverge, { l with position := p })

/-- `Lexer.Peek`. `Unwrap` of an error panics, and `Peek` does not recover.
-- models wat/lex/lexer.go:68-76 -/
def peekTok : SM Lexer Token := fun l =>
  match l.peekToken with
  | some t => (.ok t, l)
  | none =>
    match lexNext l with
    | (.ok t, l) => (.ok t, { l with peekToken := some t })
    | (.err, l) => (.panic, l)
    | r => r

/-- `Lexer.Next`.
-- models wat/lex/lexer.go:78-88 -/
def nextTok : SM Lexer Token := fun l =>
  match l.peekToken with
  | none => lexNext l
  | some t => (.ok t, { l with peekToken := none })

end Verif.Wat
