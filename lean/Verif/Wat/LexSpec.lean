import Verif.Wat.Lex

/-!
# What the next token of a text is

Written without automata: which bytes the first token of a text takes.
-/

namespace Verif.Wat.Spec

/-- Length of the longest prefix of bytes with a property. -/
def run (p : Byte → Bool) (w : List Byte) : Nat := (w.takeWhile p).length

/-- The number of bytes up to and with the first `;)`. -/
def closing : List Byte → Option Nat
  | [] => none
  | b :: w => if b = ch ';' ∧ w.head? = some (ch ')') then some 2 else (closing w).map (· + 1)

/-- Kind and length of the first token; the kind of words is refined later. `none` if no token can begin so. -/
def first : List Byte → Option (TokenType × Nat)
  | [] => some (.endOfStream, 0)
  | b :: w =>
    if isSpace b then some (.whitespace, 1 + run isSpace w)
    else if b = ch '(' then
      if w.head? = some (ch ';') then
        match closing w.tail with
        | some n => some (.blockComment, 2 + n)
        | none => some (.endOfStream, 1 + w.length)
      else some (.openParen, 1)
    else if b = ch ')' then some (.closeParen, 1)
    else if b = ch '"' then
      let n := run (· != ch '"') w
      if n < w.length then some (.string, n + 2) else some (.endOfStream, 1 + w.length)
    else if b = ch ';' then
      if w.head? = some (ch ';') then
        let n := run (· != ch '\n') w.tail
        if n < w.tail.length then some (.lineComment, n + 3) else some (.endOfStream, 1 + w.length)
      else if w = [] then some (.endOfStream, 1)
      else none
    else if isIdChar b then
      let n := run isIdChar w
      some (if b = ch '$' ∧ 1 ≤ n then .id else .reserved, 1 + n)
    else none

end Verif.Wat.Spec
