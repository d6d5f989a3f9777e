import Verif.Go.Strconv
import Verif.Wit.Ast
import Verif.Wit.Lex

/-!
# Model of package `wit/parse`

The parser is written over two calls, the `peek` and `next` of wit/parse/parser.go. Every other function reads the text
through these two, so each is defined for any state `S` with these two calls; `lexOps` gives the two calls on a lexer.

`x.Unwrap()` in a function with `defer handle.Error(&res)` returns the error: `>>=`. `parseResourceMethod`,
`parseUseName`, `parseParameters` and the function literal in `parseFlags` have no such `defer`, but each of their callers
has, and gets the same error. A lexer that is cloned and either dropped or copied back is a state that is kept and restored.

Loops and recursive calls carry a bound `n` on their number; reaching it is the outcome `diverge`.
-/

namespace Verif.Wit

/-- What the parser looks at in a token. The position is used in messages only. -/
structure Sig where
  type : TokenType
  capture : List Byte
  deriving DecidableEq, Repr

/-- The calls that read tokens. -/
structure Ops (S : Type) where
  peek : SM S Sig
  next : SM S Sig

/-! ## Reading tokens from a lexer -/

/-- White space and comments.
-- models wit/parse/parser.go:933-935, 949-959 -/
def TokenType.isTrivia : TokenType → Bool
  | .whitespace | .blockComment | .lineComment => true
  | _ => false

/-- What the parser looks at in a token. Simplification: the capture of an end of stream token is left out; it is always
empty (`end_capture_empty`). -/
def Token.sig (t : Token) : Sig := ⟨t.type, if t.type = .endOfStream then [] else t.capture⟩

section
variable [Unicode]

/-- The loop of `next`.
-- models wit/parse/parser.go:944-962 -/
def nextLoop : Nat → SM Lexer Sig
  | 0 => fun l => (.diverge, l)
  | n + 1 => do
    let t ← nextTok
    if t.type.isTrivia then nextLoop n else pure t.sig

/-- `Lexer.Peek` under `defer handle.Error`: the panic of `Unwrap` becomes an error again.
-- models wit/parse/parser.go:928, 930-931 -/
def peekCaught : SM Lexer Token := fun l =>
  match peekTok l with
  | (.panic, l) => (.err, l)
  | r => r

/-- The loop of `peek`.
-- models wit/parse/parser.go:927-942 -/
def peekLoop : Nat → SM Lexer Sig
  | 0 => fun l => (.diverge, l)
  | n + 1 => do
    let t ← peekCaught
    if t.type.isTrivia then do
      let _ ← nextTok
      peekLoop n
    else pure t.sig

/-- `peek` and `next`. A text has at most as many tokens as bytes, and an end token, so that the bound is never
reached.
-- models wit/parse/parser.go:927-962 -/
def lexOps : Ops Lexer where
  peek := fun l => peekLoop (l.input.length + 3) l
  next := fun l => nextLoop (l.input.length + 3) l

end

/-! ## Tokens -/

section
variable {S : Type} (o : Ops S)

/-- The bound is reached. -/
def spent {α : Type} : SM S α := fun s => (.diverge, s)

/-- `expect`.
-- models wit/parse/parser.go:918-925 -/
def expect (ty : TokenType) : SM S Unit := do
  let tok ← o.next
  if tok.type = ty then pure () else SM.fail

/-- `eat`, with `is`.
-- models wit/parse/parser.go:906-916, 964-966 -/
def eatTok (ty : TokenType) : SM S Bool := do
  let tok ← o.peek
  if tok.type ≠ ty then pure false
  else do
    expect o ty
    pure true

/-- `parseId`.
-- models wit/parse/parser.go:882-893 -/
def parseId : SM S (List Byte) := do
  let tok ← o.next
  if tok.type = .id then pure tok.capture
  else if tok.type = .explicitId then pure tok.capture
  else SM.fail

/-- `parseInteger`.
-- models wit/parse/parser.go:895-905 -/
def parseInteger : SM S Int := do
  let tok ← o.next
  if tok.type = .integer then SM.lift (Strconv.parseInt tok.capture 32) else SM.fail

/-- `for !eat(lexer, close).Unwrap() { body }` with the results of the body in order.
-- models wit/parse/parser.go:130-132, 631-633, 700-708 -/
def untilTok {α : Type} (close : TokenType) (body : SM S α) : Nat → SM S (List α)
  | 0 => spent
  | n + 1 => do
    let b ← eatTok o close
    if b then pure []
    else do
      let x ← body
      let xs ← untilTok close body n
      pure (x :: xs)

/-- The loop of `parseItemList`.
-- models wit/parse/parser.go:317-326 -/
def itemLoop {α : Type} (end_ : TokenType) (item : SM S α) : Nat → SM S (List α)
  | 0 => spent
  | n + 1 => do
    let b ← eatTok o end_
    if b then pure []
    else do
      let x ← item
      let c ← eatTok o .comma
      if c then do
        let xs ← itemLoop end_ item n
        pure (x :: xs)
      else do
        expect o end_
        pure [x]

/-- `parseItemList`.
-- models wit/parse/parser.go:307-328 -/
def parseItemList {α : Type} (begin_ end_ : TokenType) (item : SM S α) (n : Nat) : SM S (List α) := do
  expect o begin_
  itemLoop o end_ item n

/-! ## Types -/

/-- `parseList` and `parseOption` between the angle brackets; both set the embedded `Type`.
-- models wit/parse/parser.go:560-578 -/
def parseBracketed (ty : SM S Ty) : SM S Ty := do
  expect o .less
  let t ← ty
  expect o .greater
  pure t

/-- `parseOwn` and `parseBorrow`, which are in line.
-- models wit/parse/parser.go:500-511 -/
def parseHandle : SM S (List Byte) := do
  expect o .less
  let id ← parseId o
  expect o .greater
  pure id

/-- `parseFuture`.
-- models wit/parse/parser.go:544-558 -/
def parseFuture (ty : SM S Ty) : SM S (Option Ty) := do
  let b ← eatTok o .less
  if b then do
    let t ← ty
    expect o .greater
    pure (some t)
  else pure none

/-- The types of `parseStream` and `parseResult` after the first one.
-- models wit/parse/parser.go:535-537, 604-606 -/
def parseSecond (ty : SM S Ty) : SM S (Option Ty) := do
  let c ← eatTok o .comma
  if c then do
    let t ← ty
    pure (some t)
  else pure none

/-- The types of `parseStream` and `parseResult` after `<`.
-- models wit/parse/parser.go:530-538, 599-607 -/
def parsePairInner (ty : SM S Ty) : SM S (Option Ty × Option Ty) := do
  let u ← eatTok o .underscore
  if u then do
    expect o .comma
    let t ← ty
    pure (none, some t)
  else do
    let t ← ty
    let s ← parseSecond o ty
    pure (some t, s)

/-- `parseStream` and `parseResult`.
-- models wit/parse/parser.go:519-542, 588-611 -/
def parsePair (ty : SM S Ty) : SM S (Option Ty × Option Ty) := do
  let b ← eatTok o .less
  if b then do
    let p ← parsePairInner o ty
    expect o .greater
    pure p
  else pure (none, none)

/-- The switch of `parseType`; `parseTuple` is in line.
-- models wit/parse/parser.go:479-514, 580-586 -/
def parseTypeOf (ty : SM S Ty) (n : Nat) (tok : Sig) : SM S Ty :=
  if tok.type = .u32 then pure .u32
  else if tok.type = .string then pure .string
  else if tok.type = .float32 then pure .float32
  else if tok.type = .float64 then pure .float64
  else if tok.type = .stream then do
    let p ← parsePair o ty
    pure (.stream p.1 p.2)
  else if tok.type = .future then do
    let t ← parseFuture o ty
    pure (.future t)
  else if tok.type = .list then do
    let t ← parseBracketed o ty
    pure (.list (some t) none)
  else if tok.type = .option then do
    let t ← parseBracketed o ty
    pure (.option (some t) none)
  else if tok.type = .result then do
    let p ← parsePair o ty
    pure (.result p.1 p.2)
  else if tok.type = .tuple then do
    let ts ← parseItemList o .less .greater ty n
    pure (.tuple ts)
  else if tok.type = .own then do
    let id ← parseHandle o
    pure (.own id)
  else if tok.type = .borrow then do
    let id ← parseHandle o
    pure (.borrow id)
  else pure (.id tok.capture)

/-- `parseType`.
-- models wit/parse/parser.go:473-517 -/
def parseType : Nat → SM S Ty
  | 0 => spent
  | n + 1 => do
    let tok ← o.next
    parseTypeOf o (parseType n) n tok

/-! ## Functions -/

/-- `parseParameter`.
-- models wit/parse/parser.go:443-454 -/
def parseParameter (n : Nat) : SM S Parameter := do
  let id ← parseId o
  expect o .colon
  let t ← parseType o n
  pure ⟨id, t⟩

/-- The loop of `parseParameters`, with a bound of its own.
-- models wit/parse/parser.go:418-440 -/
def parameterLoop (n : Nat) : Nat → SM S (List Parameter)
  | 0 => spent
  | k + 1 => do
    let b ← eatTok o .closeParen
    if b then pure []
    else do
      let p ← parseParameter o n
      let tok ← o.peek
      if tok.type = .comma then do
        expect o .comma
        let ps ← parameterLoop n k
        pure (p :: ps)
      else if tok.type = .closeParen then do
        expect o .closeParen
        pure [p]
      else SM.fail

/-- `parseParameters`.
-- models wit/parse/parser.go:413-441 -/
def parseParameters (n : Nat) : SM S (List Parameter) := do
  expect o .openParen
  parameterLoop o n n

/-- The results of a function.
-- models wit/parse/parser.go:395-405 -/
def parseResults (n : Nat) : SM S ResultList := do
  let b ← eatTok o .rightArrow
  if b then do
    let tok ← o.peek
    if tok.type = .openParen then do
      let ps ← parseParameters o n
      pure ⟨ps, none⟩
    else do
      let t ← parseType o n
      pure ⟨[], some t⟩
  else pure ⟨[], none⟩

/-- `parseFunc`.
-- models wit/parse/parser.go:388-411 -/
def parseFunc (n : Nat) : SM S FuncType := do
  expect o .func
  let ps ← parseParameters o n
  let rs ← parseResults o n
  pure ⟨ps, rs⟩

/-- `parseFuncItem`.
-- models wit/parse/parser.go:373-386 -/
def parseFuncItem (n : Nat) : SM S FuncItem := do
  let id ← parseId o
  expect o .colon
  let f ← parseFunc o n
  expect o .semicolon
  pure ⟨id, f⟩

/-! ## Type definitions -/

/-- `parseTypeItem`.
-- models wit/parse/parser.go:456-471 -/
def parseTypeItem (n : Nat) : SM S TypeDef := do
  expect o .type
  let id ← parseId o
  expect o .equal
  let t ← parseType o n
  expect o .semicolon
  pure (.type id t)

/-- `parseRecordField`.
-- models wit/parse/parser.go:781-787 -/
def parseRecordField (n : Nat) : SM S Field := do
  let id ← parseId o
  expect o .colon
  let t ← parseType o n
  pure ⟨id, t⟩

/-- `parseRecord`.
-- models wit/parse/parser.go:762-779 -/
def parseRecord (n : Nat) : SM S TypeDef := do
  expect o .record
  let id ← parseId o
  let fs ← parseItemList o .openBrace .closeBrace (parseRecordField o n) n
  pure (.record id fs)

/-- `parseFlags`.
-- models wit/parse/parser.go:791-809 -/
def parseFlags (n : Nat) : SM S TypeDef := do
  expect o .flags
  let id ← parseId o
  let fs ← parseItemList o .openBrace .closeBrace (parseId o) n
  pure (.flags id fs)

/-- The type of a case, if there is one.
-- models wit/parse/parser.go:843-847 -/
def parseCaseType (n : Nat) : SM S (Option Ty) := do
  let b ← eatTok o .openParen
  if b then do
    let t ← parseType o n
    expect o .closeParen
    pure (some t)
  else pure none

/-- `parseVariantCase`.
-- models wit/parse/parser.go:836-849 -/
def parseVariantCase (n : Nat) : SM S Case := do
  let id ← parseId o
  let t ← parseCaseType o n
  pure ⟨id, t⟩

/-- `parseVariant`.
-- models wit/parse/parser.go:814-834 -/
def parseVariant (n : Nat) : SM S TypeDef := do
  expect o .variant
  let id ← parseId o
  let cs ← parseItemList o .openBrace .closeBrace (parseVariantCase o n) n
  pure (.variant id cs)

/-- `parseEnum` and `parseEnumCase`.
-- models wit/parse/parser.go:853-880 -/
def parseEnum (n : Nat) : SM S TypeDef := do
  expect o .enum
  let id ← parseId o
  let cs ← parseItemList o .openBrace .closeBrace (parseId o) n
  pure (.enum id cs)

/-- `parseResourceMethod` after `constructor`.
-- models wit/parse/parser.go:228-233 -/
def parseConstructor (n : Nat) : SM S ResourceMethod := do
  let ps ← parseParameters o n
  expect o .semicolon
  pure (.constructor ps)

/-- `parseResourceMethod` on other tokens: the first tokens are read from a clone, which is copied back if `static` is
among them. The `ID` of a `Method` is not set.
-- models wit/parse/parser.go:236-265 -/
def parseStaticOrMethod (n : Nat) : SM S ResourceMethod := do
  let before ← SM.get
  let id ← parseId o
  expect o .colon
  let b ← eatTok o .static
  if b then do
    let f ← parseFunc o n
    expect o .semicolon
    pure (.static id f)
  else do
    SM.modify fun _ => before
    let f ← parseFuncItem o n
    pure (.method [] f)

/-- `parseResourceMethod`.
-- models wit/parse/parser.go:222-266 -/
def parseResourceMethod (n : Nat) : SM S ResourceMethod := do
  let b ← eatTok o .constructor
  if b then parseConstructor o n else parseStaticOrMethod o n

/-- The loop of `parseResource`, with a bound of its own.
-- models wit/parse/parser.go:207-212 -/
def methodLoop (n : Nat) : Nat → SM S (List ResourceMethod)
  | 0 => spent
  | k + 1 => do
    let tok ← o.peek
    if tok.type ≠ .closeBrace then do
      let m ← parseResourceMethod o n
      let ms ← methodLoop n k
      pure (m :: ms)
    else pure []

/-- The methods of a resource.
-- models wit/parse/parser.go:200-214 -/
def parseMethods (n : Nat) : SM S (List ResourceMethod) := do
  let tok ← o.peek
  if tok.type = .semicolon then do
    expect o .semicolon
    pure []
  else if tok.type = .openBrace then do
    expect o .openBrace
    let ms ← methodLoop o n n
    expect o .closeBrace
    pure ms
  else pure []

/-- `parseResource`.
-- models wit/parse/parser.go:191-220 -/
def parseResource (n : Nat) : SM S TypeDef := do
  expect o .resource
  let id ← parseId o
  let ms ← parseMethods o n
  pure (.resource id ms)

/-- `parseTypeDef`.
-- models wit/parse/parser.go:165-189 -/
def parseTypeDef (n : Nat) : SM S TypeDef := do
  let tok ← o.peek
  if tok.type = .resource then parseResource o n
  else if tok.type = .variant then parseVariant o n
  else if tok.type = .record then parseRecord o n
  else if tok.type = .flags then parseFlags o n
  else if tok.type = .enum then parseEnum o n
  else if tok.type = .type then parseTypeItem o n
  else SM.fail

/-! ## Paths and uses -/

/-- `parseOptionalVersion`.
-- models wit/parse/parser.go:369-371 -/
def parseOptionalVersion : SM S (Option Version) := SM.fail

/-- `parsePath`.
-- models wit/parse/parser.go:345-367 -/
def parsePath (namespace_ : List Byte) : SM S UsePath := do
  let pkg ← parseId o
  expect o .slash
  let name ← parseId o
  let version ← parseOptionalVersion
  pure ⟨txt "string", some ⟨namespace_, pkg, version⟩, name⟩

/-- `parseUsePath`.
-- models wit/parse/parser.go:330-343 -/
def parseUsePath : SM S UsePath := do
  let id ← parseId o
  let b ← eatTok o .colon
  if b then parsePath o id else pure ⟨id, none, []⟩

/-- The name after `as`, if there is one.
-- models wit/parse/parser.go:104-108, 300-303 -/
def parseAs : SM S (Option (List Byte)) := do
  let b ← eatTok o .as
  if b then do
    let id ← parseId o
    pure (some id)
  else pure none

/-- `parseUseName`.
-- models wit/parse/parser.go:294-305 -/
def parseUseName : SM S UseName := do
  let id ← parseId o
  let a ← parseAs o
  pure ⟨id, a⟩

/-- `parseUse`.
-- models wit/parse/parser.go:268-292 -/
def parseUse (n : Nat) : SM S Use := do
  expect o .use
  let p ← parseUsePath o
  expect o .period
  let ns ← parseItemList o .openBrace .closeBrace (parseUseName o) n
  expect o .semicolon
  pure ⟨p, ns⟩

/-- `parseTopLevelUse`.
-- models wit/parse/parser.go:98-110 -/
def parseTopLevelUse : SM S TopLevelUse := do
  let p ← parseUsePath o
  let a ← parseAs o
  pure ⟨p, a⟩

/-- A name of an `include`.
-- models wit/parse/parser.go:701-707 -/
def parseIncludeName : SM S IncludeName := do
  let id ← parseId o
  expect o .as
  let a ← parseId o
  pure ⟨id, a⟩

/-- The names of an `include`.
-- models wit/parse/parser.go:698-711 -/
def parseIncludeNames (n : Nat) : SM S (List IncludeName) := do
  let b ← eatTok o .with
  if b then do
    expect o .openBrace
    untilTok o .closeBrace (parseIncludeName o) n
  else do
    expect o .semicolon
    pure []

/-- `parseInclude`.
-- models wit/parse/parser.go:687-714 -/
def parseInclude (n : Nat) : SM S Include := do
  expect o .include
  let p ← parseUsePath o
  let ns ← parseIncludeNames o n
  pure ⟨p, ns⟩

/-! ## Interfaces and worlds -/

/-- `parseInterfaceItem`.
-- models wit/parse/parser.go:136-163 -/
def parseInterfaceItem (n : Nat) : SM S InterfaceItem := do
  let tok ← o.peek
  if tok.type = .use then do
    let u ← parseUse o n
    pure (.use u)
  else if tok.type = .resource then do
    let t ← parseResource o n
    pure (.typeDef t)
  else if tok.type = .record then do
    let t ← parseRecord o n
    pure (.typeDef t)
  else if tok.type = .flags then do
    let t ← parseFlags o n
    pure (.typeDef t)
  else if tok.type = .variant then do
    let t ← parseVariant o n
    pure (.typeDef t)
  else if tok.type = .enum then do
    let t ← parseEnum o n
    pure (.typeDef t)
  else if tok.type = .type then do
    let t ← parseTypeDef o n
    pure (.typeDef t)
  else do
    let f ← parseFuncItem o n
    pure (.func f)

/-- `parseInterfaceItems`.
-- models wit/parse/parser.go:126-134 -/
def parseInterfaceItems (n : Nat) : SM S (List InterfaceItem) := do
  expect o .openBrace
  untilTok o .closeBrace (parseInterfaceItem o n) n

/-- `parseInterface`.
-- models wit/parse/parser.go:112-124 -/
def parseInterface (n : Nat) : SM S Interface := do
  let id ← parseId o
  let items ← parseInterfaceItems o n
  pure ⟨id, items⟩

/-- `parseExternType`: the name and a colon are read from a clone; without a colon the clone is dropped.
-- models wit/parse/parser.go:716-757 -/
def parseExternType (n : Nat) : SM S ExternType := do
  let before ← SM.get
  let id ← parseId o
  let b ← eatTok o .colon
  if b then do
    let tok ← o.peek
    if tok.type = .func then do
      let f ← parseFunc o n
      expect o .semicolon
      pure (.func id f)
    else if tok.type = .interface then do
      expect o .interface
      let items ← parseInterfaceItems o n
      pure (.interface id items)
    else SM.fail
  else do
    SM.modify fun _ => before
    let p ← parseUsePath o
    expect o .semicolon
    pure (.usePath p)

/-- `parseExport`.
-- models wit/parse/parser.go:669-676 -/
def parseExport (n : Nat) : SM S ExternType := do
  expect o .export
  parseExternType o n

/-- `parseImport`.
-- models wit/parse/parser.go:678-685 -/
def parseImport (n : Nat) : SM S ExternType := do
  expect o .import
  parseExternType o n

/-- `parseWorldItem`.
-- models wit/parse/parser.go:637-667 -/
def parseWorldItem (n : Nat) : SM S WorldItem := do
  let tok ← o.peek
  if tok.type = .export then do
    let e ← parseExport o n
    pure (.export_ e)
  else if tok.type = .import then do
    let e ← parseImport o n
    pure (.import_ e)
  else if tok.type = .use then do
    let u ← parseUse o n
    pure (.use u)
  else if tok.type = .type then do
    let t ← parseTypeDef o n
    pure (.typeDef t)
  else if tok.type = .record then do
    let t ← parseRecord o n
    pure (.typeDef t)
  else if tok.type = .variant then do
    let t ← parseVariant o n
    pure (.typeDef t)
  else if tok.type = .resource then do
    let t ← parseResource o n
    pure (.typeDef t)
  else if tok.type = .include then do
    let i ← parseInclude o n
    pure (.include i)
  else SM.fail

/-- `parseWorld` and `parseWorldItems`.
-- models wit/parse/parser.go:613-635 -/
def parseWorld (n : Nat) : SM S World := do
  let id ← parseId o
  expect o .openBrace
  let items ← untilTok o .closeBrace (parseWorldItem o n) n
  pure ⟨id, items⟩

/-! ## Documents -/

/-- `parseVersion`.
-- models wit/parse/parser.go:80-96 -/
def parseVersion : SM S Version := do
  let major ← parseInteger o
  expect o .period
  let minor ← parseInteger o
  expect o .period
  let patch ← parseInteger o
  pure ⟨BitVec.ofInt 64 major, BitVec.ofInt 64 minor, BitVec.ofInt 64 patch, [], []⟩

/-- The version of a package, if there is one.
-- models wit/parse/parser.go:69-74 -/
def parsePackageVersion : SM S (Option Version) := do
  let b ← eatTok o .at
  if b then do
    let v ← parseVersion o
    pure (some v)
  else pure none

/-- `parsePackageDeclaration`; the namespace is the capture of any token.
-- models wit/parse/parser.go:55-78 -/
def parsePackageDeclaration : SM S PackageDeclaration := do
  let ns ← o.next
  expect o .colon
  let name ← parseId o
  let v ← parsePackageVersion o
  expect o .semicolon
  pure ⟨ns.capture, name, v⟩

/-- The switch of `parseAst` on the first token of an item; another token leaves the item empty.
-- models wit/parse/parser.go:39-48 -/
def parseAstItem (n : Nat) (tok : Sig) : SM S AstItem :=
  if tok.type = .use then do
    let u ← parseTopLevelUse o
    pure ⟨none, none, some u⟩
  else if tok.type = .world then do
    let w ← parseWorld o n
    pure ⟨none, some w, none⟩
  else if tok.type = .interface then do
    let i ← parseInterface o n
    pure ⟨some i, none, none⟩
  else pure ⟨none, none, none⟩

/-- The loop of `parseAst`, with a bound of its own and with the token read last.
-- models wit/parse/parser.go:38-51 -/
def astLoop (n : Nat) : Nat → Sig → SM S (List AstItem)
  | 0, _ => spent
  | k + 1, tok =>
    if tok.type ≠ .endOfStream then do
      let i ← parseAstItem o n tok
      let tok' ← o.next
      let is ← astLoop n k tok'
      pure (i :: is)
    else pure []

/-- The package declaration of `parseAst`, with the token after it.
-- models wit/parse/parser.go:29-36 -/
def parseAstPackage (tok : Sig) : SM S (Option PackageDeclaration × Sig) :=
  if tok.type = .package then do
    let p ← parsePackageDeclaration o
    let tok' ← o.next
    pure (some p, tok')
  else pure (none, tok)

/-- `parseAst`.
-- models wit/parse/parser.go:23-53 -/
def parseAst (n : Nat) : SM S Ast := do
  let tok ← o.next
  let p ← parseAstPackage o tok
  let is ← astLoop o n n p.2
  pure ⟨p.1, is⟩

end

/-- `Parse` with a bound on loops and recursion.
-- models wit/parse/parser.go:18-21 -/
def parseText [Unicode] (n : Nat) (text : List Byte) : Res Ast := (parseAst lexOps n (Lexer.new text)).1

end Verif.Wit
