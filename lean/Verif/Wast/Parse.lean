import Verif.Wat.Parse

/-!
# Model of packages `wast/ast` and `wast/parse`

Scripts of directives: modules and assertions about them. As in the model of `wat/parse`, the functions are written over
the two calls that read tokens. The `peek`, `next`, `eat`, `expect` and `expectValue` of wast/parse/parser.go:361-427 are
copies of those of wat/parse/parser.go, so their models are used here.

`parseConst` has no `defer handle.Error`: the panic of an `Unwrap` in it goes to the `defer` of `parseConsts` or
`parseResults`, which return the error. `parseString`, `parseInt32`, `parseInt64`, `parseFloat32`, `parseFloat64`,
`peekFloat` and `peekInteger` of wast/parse/parser.go:345-359, 439-460 hand over the results of functions of `wat/parse`.
-/

namespace Verif.Wast

open Verif.Wat (Sig Ops Lib TokenType Lexer expect expectWord eat parens parseString parseInt32 parseInt64 parseFloat32
  parseFloat64 peekFloat constFloat32 parseOptionalId spent lexOps)

/-- `Const` and `Result`; both are implemented by the same four types.
-- models wast/ast/ast.go:80-110 -/
inductive Const where
  | i32 (value : U32)
  | i64 (value : U64)
  | f32 (value : U32)
  | f64 (value : U64)
  deriving DecidableEq, Repr

/-- `Invoke`; `none` among the constants is a nil `Const`.
-- models wast/ast/ast.go:68-74 -/
structure Invoke where
  name : Option (List Byte)
  string : List Byte
  const : List (Option Const)
  deriving DecidableEq, Repr

/-- `QuoteWat`: a module or component, or a string with the text of one.
-- models wast/ast/ast.go:16-18, 25-38 -/
inductive QuoteWat where
  | wat (d : Wat.Directive)
  | quoteModule (quote : List Byte)
  | quoteComponent (quote : List Byte)

/-- `Directive`. An action is an `Invoke` or nil: a `Get` is never made.
-- models wast/ast/ast.go:8-10, 20-23, 40-66, 76-78 -/
inductive Directive where
  | wat (q : QuoteWat)
  | assertReturn (action : Option Invoke) (results : List Const)
  | assertInvalid (module : QuoteWat) (failure : List Byte)
  | assertMalformed (module : QuoteWat) (failure : List Byte)
  | assertTrap (action : Option Invoke) (failure : List Byte)

section
variable {S : Type} (o : Ops S) (lib : Lib)

/-- `peekInteger`.
-- models wast/parse/parser.go:444-450 -/
def peekInteger : SM S Bool := do
  let tok ← o.peek
  pure (tok.type == .integer)

/-- The constant of `f64.const`; a token that is no number is left where it is and the constant is 0.
-- models wast/parse/parser.go:304-314 -/
def constFloat64 : SM S U64 := do
  let b ← peekFloat o
  if b then parseFloat64 o lib
  else do
    let b ← peekInteger o
    if b then do
      let i ← parseInt64 o
      pure (lib.float64OfInt i)
    else pure 0

/-- `parseConst`. The constant of `f32.const` is read as in `wat/parse`.
-- models wast/parse/parser.go:270-322 -/
def parseConst : SM S (Option Const) := do
  let tok ← o.next
  if tok.type ≠ .reserved then SM.fail
  else if tok.capture = txt "i32.const" then do
    let v ← parseInt32 o
    pure (some (.i32 v))
  else if tok.capture = txt "i64.const" then do
    let v ← parseInt64 o
    pure (some (.i64 v))
  else if tok.capture = txt "f32.const" then do
    let v ← constFloat32 o lib
    pure (some (.f32 v))
  else if tok.capture = txt "f64.const" then do
    let v ← constFloat64 o lib
    pure (some (.f64 v))
  else if tok.capture = txt "ref.null" then pure none
  else if tok.capture = txt "ref.extern" then pure none
  else SM.fail

/-- `parseConsts`.
-- models wast/parse/parser.go:258-268 -/
def parseConsts (n : Nat) : SM S (List (Option Const)) := parens o (parseConst o lib) n

/-- `parseResults`. After a nil constant the loop goes on without reading a closing parenthesis.
-- models wast/parse/parser.go:328-343 -/
def parseResults : Nat → SM S (List Const)
  | 0 => spent
  | n + 1 => do
    let b ← eat o .openParen
    if b then do
      let c ← parseConst o lib
      match c with
      | none => parseResults n
      | some r => do
        expect o .closeParen
        let rs ← parseResults n
        pure (r :: rs)
    else pure []

/-- `parseInvoke`.
-- models wast/parse/parser.go:234-256 -/
def parseInvoke (n : Nat) : SM S Invoke := do
  let name ← parseOptionalId o
  let str ← parseString o
  let consts ← parseConsts o lib n
  pure ⟨name, str, consts⟩

/-- The switch of `parseAction`; `parseGet` returns an error. Any other word leaves the action nil.
-- models wast/parse/parser.go:221-227, 324-326 -/
def actionBody (n : Nat) (w : List Byte) : SM S (Option Invoke) :=
  if w = txt "invoke" then do
    let i ← parseInvoke o lib n
    pure (some i)
  else if w = txt "get" then SM.fail
  else pure none

/-- `parseAction`.
-- models wast/parse/parser.go:207-232 -/
def parseAction (n : Nat) : SM S (Option Invoke) := do
  expect o .openParen
  let tok ← o.next
  if tok.type ≠ .reserved then SM.fail
  else do
    let a ← actionBody o lib n tok.capture
    expect o .closeParen
    pure a

/-- The keyword of a `QuoteWat`: whether it is `component`.
-- models wast/parse/parser.go:139-147 -/
def quoteKeyword : SM S Bool := do
  let b ← eat o .component
  if b then pure true
  else do
    let b ← eat o .module
    if b then pure false
    else do
      let _ ← o.next
      SM.fail

/-- `parseQuoteWat` with `parseWat`. Three tokens are read from a clone; the lexer becomes the clone if the third is
`quote` and stays as it was otherwise.
-- models wast/parse/parser.go:131-189 -/
def parseQuoteWat (n : Nat) : SM S QuoteWat := do
  let before ← SM.get
  expect o .openParen
  let isComponent ← quoteKeyword o
  let tok ← o.next
  if tok.type ≠ .reserved ∨ tok.capture ≠ txt "quote" then do
    SM.modify fun _ => before
    let d ← Wat.parse o lib n
    pure (.wat d)
  else do
    let s ← parseString o
    expect o .closeParen
    pure (if isComponent then .quoteComponent s else .quoteModule s)

/-- `parseAssertReturn`.
-- models wast/parse/parser.go:78-95 -/
def parseAssertReturn (n : Nat) : SM S Directive := do
  expectWord o (txt "assert_return")
  let action ← parseAction o lib n
  let results ← parseResults o lib n
  pure (.assertReturn action results)

/-- `parseAssertInvalid`.
-- models wast/parse/parser.go:97-111 -/
def parseAssertInvalid (n : Nat) : SM S Directive := do
  expectWord o (txt "assert_invalid")
  let module ← parseQuoteWat o lib n
  let failure ← parseString o
  pure (.assertInvalid module failure)

/-- `parseAssertMalformed`.
-- models wast/parse/parser.go:113-129 -/
def parseAssertMalformed (n : Nat) : SM S Directive := do
  expectWord o (txt "assert_malformed")
  let module ← parseQuoteWat o lib n
  let failure ← parseString o
  pure (.assertMalformed module failure)

/-- `parseAssertTrap`.
-- models wast/parse/parser.go:191-205 -/
def parseAssertTrap (n : Nat) : SM S Directive := do
  expect o .reserved
  let action ← parseAction o lib n
  let failure ← parseString o
  pure (.assertTrap action failure)

/-- The cases of `parseDirective` other than modules.
-- models wast/parse/parser.go:58-72 -/
def assertionBody (n : Nat) (w : List Byte) : SM S Directive :=
  if w = txt "assert_return" then parseAssertReturn o lib n
  else if w = txt "assert_invalid" then parseAssertInvalid o lib n
  else if w = txt "assert_malformed" then parseAssertMalformed o lib n
  else if w = txt "assert_trap" then parseAssertTrap o lib n
  else SM.fail

/-- An assertion with its closing parenthesis.
-- models wast/parse/parser.go:58-75 -/
def parseAssertion (n : Nat) (w : List Byte) : SM S Directive := do
  let d ← assertionBody o lib n w
  expect o .closeParen
  pure d

/-- `parseDirective`. Two tokens are read from a clone; for a module or component the lexer stays as it was, otherwise it
becomes the clone.
-- models wast/parse/parser.go:38-76 -/
def parseDirective (n : Nat) : SM S Directive := do
  let before ← SM.get
  expect o .openParen
  let tok ← o.peek
  if tok.capture = txt "module" ∨ tok.capture = txt "component" then do
    SM.modify fun _ => before
    let q ← parseQuoteWat o lib n
    pure (.wat q)
  else parseAssertion o lib n tok.capture

/-- `parseWast`.
-- models wast/parse/parser.go:22-36 -/
def parseWast : Nat → SM S (List Directive)
  | 0 => spent
  | n + 1 => do
    let tok ← o.peek
    if tok.type = .endOfStream then pure []
    else do
      let d ← parseDirective o lib n
      let ds ← parseWast n
      pure (d :: ds)

end

/-- `Parse` with a bound on loops and recursion.
-- models wast/parse/parser.go:17-20 -/
def parseScript (lib : Lib) (n : Nat) (text : List Byte) : Res (List Directive) := (parseWast lexOps lib n (Lexer.new text)).1

end Verif.Wast
