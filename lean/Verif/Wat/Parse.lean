import Verif.Go.Strconv
import Verif.Wat.Ast
import Verif.Wat.Lex

/-!
# Model of package `wat/parse`

The parser is written over two calls, the `peek` and `next` of wat/parse/parser.go. Every other function reads the text
through these two, so each is defined for any state `S` with these two calls; `lexOps` gives the two calls on a lexer.

`x.Unwrap()` in a function with `defer handle.Error(&res)` returns the error: `>>=`. `parseOptionalId`, `parseId` and
`parseString` have no such `defer`, but each of their callers has, and gets the same error.

Loops and recursive calls carry a bound `n` on their number; reaching it is the outcome `diverge`.
-/

namespace Verif.Wat

/-- What the parser looks at in a token. The position is used in messages only. -/
structure Sig where
  type : TokenType
  capture : List Byte
  deriving DecidableEq, Repr

/-- The calls that read tokens. -/
structure Ops (S : Type) where
  peek : SM S Sig
  next : SM S Sig

/-- The calls into Go's standard library whose results are not modelled. `parseFloat32 s` is
`strconv.ParseFloat(s, 32)` turned into a `float32`, `parseFloat64 s` the `float64` it returns, `float32OfInt` and
`float64OfInt` are conversions of an `int32` and an `int64`. -/
structure Lib where
  parseFloat32 : List Byte → Res U32
  parseFloat64 : List Byte → Res U64
  float32OfInt : U32 → U32
  float64OfInt : U64 → U64

/-! ## Reading tokens from a lexer -/

/-- White space and comments.
-- models wat/parse/parser.go:922-932, 942-946 -/
def TokenType.isTrivia : TokenType → Bool
  | .whitespace | .blockComment | .lineComment => true
  | _ => false

/-- What the parser looks at in a token. Simplification: the capture of an end of stream token is left out. It is
compared with words only and never is a word: see `end_capture_no_word`. -/
def Token.sig (t : Token) : Sig := ⟨t.type, if t.type = .endOfStream then [] else t.capture⟩

/-- The loop of `next`.
-- models wat/parse/parser.go:919-934 -/
def nextLoop : Nat → SM Lexer Sig
  | 0 => fun l => (.diverge, l)
  | n + 1 => do
    let t ← nextTok
    if t.type.isTrivia then nextLoop n else pure t.sig

/-- `Lexer.Peek` under `defer handle.Error`: the panic of `Unwrap` becomes an error again.
-- models wat/parse/parser.go:937-938, 940-941 -/
def peekCaught : SM Lexer Token := fun l =>
  match peekTok l with
  | (.panic, l) => (.err, l)
  | r => r

/-- The loop of `peek`.
-- models wat/parse/parser.go:939-951 -/
def peekLoop : Nat → SM Lexer Sig
  | 0 => fun l => (.diverge, l)
  | n + 1 => do
    let t ← peekCaught
    if t.type.isTrivia then do
      let _ ← nextTok
      peekLoop n
    else pure t.sig

/-- `peek` and `next`. A text has at most as many tokens as bytes, and an end token, so that the bound is never
reached.
-- models wat/parse/parser.go:917-952 -/
def lexOps : Ops Lexer where
  peek := fun l => peekLoop (l.input.length + 3) l
  next := fun l => nextLoop (l.input.length + 3) l

/-! ## Tokens -/

section
variable {S : Type} (o : Ops S) (lib : Lib)

/-- The bound is reached. -/
def spent {α : Type} : SM S α := fun s => (.diverge, s)

/-- `expect`.
-- models wat/parse/parser.go:908-915 -/
def expect (ty : TokenType) : SM S Unit := do
  let tok ← o.next
  if tok.type = ty then pure () else SM.fail

/-- `expectValue` with `token.Reserved`, the only type it is called with.
-- models wat/parse/parser.go:895-906 -/
def expectWord (w : List Byte) : SM S Unit := do
  let tok ← o.next
  if tok.type ≠ .reserved then SM.fail
  else if tok.capture ≠ w then SM.fail
  else pure ()

/-- `eat`.
-- models wat/parse/parser.go:883-893 -/
def eat (ty : TokenType) : SM S Bool := do
  let tok ← o.peek
  if tok.type ≠ ty then pure false
  else do
    expect o ty
    pure true

/-- `for eat(lexer, token.OpenParen).Unwrap() { body; expect(lexer, token.CloseParen).Unwrap() }` with the results of
the body in order.
-- models wat/parse/parser.go:51-73, 96-118, 198-209, 223-238, 351-355, 532-536, 636-652 -/
def parens {α : Type} (body : SM S α) : Nat → SM S (List α)
  | 0 => spent
  | n + 1 => do
    let b ← eat o .openParen
    if b then do
      let x ← body
      expect o .closeParen
      let xs ← parens body n
      pure (x :: xs)
    else pure []

/-- A loop that goes on while the next token satisfies a condition.
-- models wat/parse/parser.go:119-126, 149-154, 723-726 -/
def while_ {α : Type} (cond : Sig → Bool) (body : SM S α) : Nat → SM S (List α)
  | 0 => spent
  | n + 1 => do
    let tok ← o.peek
    if cond tok then do
      let x ← body
      let xs ← while_ cond body n
      pure (x :: xs)
    else pure []

/-- `parseId`.
-- models wat/parse/parser.go:750-756 -/
def parseId : SM S (List Byte) := do
  let tok ← o.next
  if tok.type ≠ .id then SM.fail else pure tok.capture

/-- `parseOptionalId`; `parseFunc`, `parseBlock`, `parseLoop` and `parseIf` do the same in line.
-- models wat/parse/parser.go:741-748, 88-95, 584-590, 604-610, 624-630 -/
def parseOptionalId : SM S (Option (List Byte)) := do
  let tok ← o.peek
  if tok.type = .id then do
    let id ← parseId o
    pure (some id)
  else pure none

/-- `strings.Trim(s, "\"")`. -/
def trimQuotes (s : List Byte) : List Byte :=
  ((s.dropWhile (· == ch '"')).reverse.dropWhile (· == ch '"')).reverse

/-- `parseString`.
-- models wat/parse/parser.go:762-768 -/
def parseString : SM S (List Byte) := do
  let tok ← o.next
  if tok.type ≠ .string then SM.fail else pure (trimQuotes tok.capture)

/-! ## Numbers -/

/-- The number an integer token stands for, before it is cut to 32 or 64 bits.
-- models wat/parse/parser.go:781-786, 800-805 -/
def integerValue (s : List Byte) : Res Int :=
  if s.head? = some (ch '-') then Strconv.parseInt s 32
  else do
    let n ← Strconv.parseUint s 32
    pure (n : Int)

/-- `parseInt32`.
-- models wat/parse/parser.go:774-787 -/
def parseInt32 : SM S U32 := do
  let tok ← o.next
  if tok.type ≠ .integer then SM.fail
  else do
    let i ← SM.lift (integerValue tok.capture)
    pure (BitVec.ofInt 32 i)

/-- `parseInt64`; it reads 32 bits only.
-- models wat/parse/parser.go:793-806 -/
def parseInt64 : SM S U64 := do
  let tok ← o.next
  if tok.type ≠ .integer then SM.fail
  else do
    let i ← SM.lift (integerValue tok.capture)
    pure (BitVec.ofInt 64 i)

/-- `peekFloat`.
-- models wat/parse/parser.go:808-812 -/
def peekFloat : SM S Bool := do
  let tok ← o.peek
  pure (tok.type == .float)

/-- The bits of a NaN from what follows `nan`.
-- models wat/parse/parser.go:831-862 -/
def nanBits (negative : Bool) (s : List Byte) : Res U32 :=
  let mask : U32 := if negative then 0xff800000 else 0x7f800000
  if s.head? = some (ch ':') then
    let s := s.drop 1
    if s.length = 0 then .ok mask
    else if (txt "canonical").isPrefixOf s then .ok 0xffc00000
    else if (txt "arithmetic").isPrefixOf s then .ok 0xffc00000
    else do
      let u ← Strconv.parseUint s 32
      .ok (BitVec.ofNat 32 u ||| mask)
  else .ok mask

/-- The bits a float token stands for.
-- models wat/parse/parser.go:824-866 -/
def float32Value (capture : List Byte) : Res U32 :=
  let negative : Bool := capture.head? = some (ch '-')
  let rest := if negative then capture.drop 1 else capture
  if (txt "nan").isPrefixOf rest then nanBits negative (rest.drop 3) else lib.parseFloat32 capture

/-- `parseFloat32`.
-- models wat/parse/parser.go:818-867 -/
def parseFloat32 : SM S U32 := do
  let tok ← o.next
  if tok.type ≠ .float then SM.fail else SM.lift (float32Value lib tok.capture)

/-- `parseFloat64`.
-- models wat/parse/parser.go:873-881 -/
def parseFloat64 : SM S U64 := do
  let tok ← o.next
  if tok.type ≠ .float then SM.fail else SM.lift (lib.parseFloat64 tok.capture)

/-- The constant of `f32.const`.
-- models wat/parse/parser.go:431-436 -/
def constFloat32 : SM S U32 := do
  let b ← peekFloat o
  if b then parseFloat32 o lib
  else do
    let i ← parseInt32 o
    pure (lib.float32OfInt i)

/-- The constant of `f64.const`.
-- models wat/parse/parser.go:442-447 -/
def constFloat64 : SM S U64 := do
  let b ← peekFloat o
  if b then parseFloat64 o lib
  else do
    let i ← parseInt64 o
    pure (lib.float64OfInt i)

/-- `parseIndex`.
-- models wat/parse/parser.go:540-559 -/
def parseIndex : SM S Index := do
  let tok ← o.next
  if tok.type = .integer then do
    let i ← SM.lift (Strconv.atoi tok.capture)
    pure (.raw (BitVec.ofInt 32 i))
  else if tok.type = .id then pure (.id tok.capture)
  else SM.fail

/-! ## Types -/

/-- The value types and their words.
-- models wat/parse/parser.go:567-578 -/
def valTypes : List (List Byte × ValType) :=
  [(txt "i32", .i32), (txt "i64", .i64), (txt "f32", .f32), (txt "f64", .f64)]

/-- `parseValType`; it looks at the capture only.
-- models wat/parse/parser.go:561-580 -/
def parseValType : SM S ValType := do
  let tok ← o.next
  match valTypes.lookup tok.capture with
  | some t => pure t
  | none => SM.fail

/-- `parseLocal`.
-- models wat/parse/parser.go:130-137 -/
def parseLocal : SM S ValType := do
  expectWord o (txt "local")
  parseValType o

/-- The types of a parameter, with or without a name.
-- models wat/parse/parser.go:146-155 -/
def parameterTypes (n : Nat) (named : Bool) : SM S (List ValType) :=
  if named then do
    let t ← parseValType o
    pure [t]
  else while_ o (fun tok => tok.type == .reserved) (parseValType o) n

/-- `parseParameter`.
-- models wat/parse/parser.go:139-161 -/
def parseParameter (n : Nat) : SM S Parameter := do
  expectWord o (txt "param")
  let id ← parseOptionalId o
  let ts ← parameterTypes o n id.isSome
  pure ⟨id, ts⟩

/-- `parseResult`.
-- models wat/parse/parser.go:163-172 -/
def parseResult : SM S Result := do
  expectWord o (txt "result")
  let t ← parseValType o
  pure ⟨[t]⟩

/-- What `parseFuncType` finds in a pair of parentheses. -/
inductive FuncTypeItem where
  | param (p : Parameter)
  | result (r : Result)
  | nothing

/-- The switch of `parseFuncType`.
-- models wat/parse/parser.go:199-207 -/
def parseFuncTypeItem (n : Nat) : SM S FuncTypeItem := do
  let tok ← o.peek
  if tok.capture = txt "param" then do
    let p ← parseParameter o n
    pure (.param p)
  else if tok.capture = txt "result" then do
    let r ← parseResult o
    pure (.result r)
  else pure .nothing

/-- The items of a `FuncType` appended to its lists.
-- models wat/parse/parser.go:203, 206, 211-214 -/
def FuncType.ofItems (items : List FuncTypeItem) : FuncType where
  parameters := items.filterMap fun | .param p => some p | _ => none
  results := items.filterMap fun | .result r => some r | _ => none

/-- `parseFuncType`.
-- models wat/parse/parser.go:192-215 -/
def parseFuncType (n : Nat) : SM S FuncType := do
  expectWord o (txt "func")
  let items ← parens o (parseFuncTypeItem o n) n
  pure (FuncType.ofItems items)

/-- The function type of a `type`, if there is one.
-- models wat/parse/parser.go:180-184 -/
def typeBody (n : Nat) : SM S FuncType := do
  let b ← eat o .openParen
  if b then do
    let f ← parseFuncType o n
    expect o .closeParen
    pure f
  else pure ⟨[], []⟩

/-- `parseType`.
-- models wat/parse/parser.go:174-190 -/
def parseType (n : Nat) : SM S TypeDef := do
  expectWord o (txt "type")
  let id ← parseOptionalId o
  let f ← typeBody o n
  pure ⟨id, f⟩

/-- The upper limit, if there is one.
-- models wat/parse/parser.go:315-320 -/
def limitsMax : SM S (Option U32) := do
  let tok ← o.peek
  if tok.type = .integer then do
    let n ← parseInt32 o
    pure (some n)
  else pure none

/-- `parseLimits`.
-- models wat/parse/parser.go:312-325 -/
def parseLimits : SM S Limits := do
  let min ← parseInt32 o
  let max ← limitsMax o
  pure ⟨min, max⟩

/-- The limits of a table, if there are any.
-- models wat/parse/parser.go:249-253 -/
def tableLimits : SM S Limits := do
  let tok ← o.peek
  if tok.type = .integer then parseLimits o else pure ⟨0, none⟩

/-- The reference types and their words.
-- models wat/parse/parser.go:259-264 -/
def refTypes : List (List Byte × RefType) := [(txt "externref", .externRef), (txt "funcref", .funcRef)]

/-- `parseTableType`; another word gives a nil `RefType`.
-- models wat/parse/parser.go:246-270 -/
def parseTableType : SM S TableType := do
  let limits ← tableLimits o
  let tok ← o.next
  if tok.type ≠ .reserved then SM.fail
  else pure ⟨limits, refTypes.lookup tok.capture⟩

/-- An element of a table.
-- models wat/parse/parser.go:224-236 -/
def parseElement : SM S (List Byte) := do
  let tok ← o.next
  if tok.type ≠ .reserved then SM.fail
  else if tok.capture = txt "elem" then parseId o
  else SM.fail

/-- `parseTable`.
-- models wat/parse/parser.go:217-244 -/
def parseTable (n : Nat) : SM S Table := do
  expectWord o (txt "table")
  let id ← parseOptionalId o
  let ty ← parseTableType o
  let es ← parens o (parseElement o) n
  pure ⟨id, ty, es⟩

/-- `parseMemory`.
-- models wat/parse/parser.go:303-310 -/
def parseMemory : SM S Memory := do
  expectWord o (txt "memory")
  let id ← parseOptionalId o
  let limits ← parseLimits o
  pure ⟨id, limits⟩

/-- `parseExport`.
-- models wat/parse/parser.go:327-334 -/
def parseExport : SM S (List Byte) := do
  expectWord o (txt "export")
  parseString o

/-- `parseImport`; its caller drops the result.
-- models wat/parse/parser.go:336-345, 112 -/
def parseImport : SM S Unit := do
  expectWord o (txt "import")
  let _ ← parseString o
  let _ ← parseString o
  pure ()

/-- `parseTypeUse`.
-- models wat/parse/parser.go:690-699 -/
def parseTypeUse : SM S (List Byte) := do
  expect o .openParen
  expectWord o (txt "type")
  let id ← parseId o
  expect o .closeParen
  pure id

/-- `parseBlockType`: the parenthesis and the word after it are read from a clone; the lexer becomes the clone if the
word is `result` and stays as it was otherwise.
-- models wat/parse/parser.go:701-739 -/
def parseBlockType : Nat → SM S (List Result)
  | 0 => spent
  | n + 1 => do
    let before ← SM.get
    let b ← eat o .openParen
    if b then do
      let tok ← o.peek
      if tok.capture ≠ txt "result" then do
        SM.modify fun _ => before
        pure []
      else do
        expectWord o (txt "result")
        let ts ← while_ o (fun tok => tok.type != .closeParen) (parseValType o) n
        expect o .closeParen
        let rs ← parseBlockType n
        pure (⟨ts⟩ :: rs)
    else do
      SM.modify fun _ => before
      pure []

/-! ## Instructions -/

/-- The words of instructions without operands.
-- models wat/parse/parser.go:381-382, 388-391, 414-419, 452-473, 476-485, 501-502 -/
def plainWords : List (List Byte × Plain) :=
  [(txt "return", .ret), (txt "drop", .drop), (txt "select", .select), (txt "memory.grow", .memoryGrow),
   (txt "i32.load", .i32Load), (txt "i32.store", .i32Store),
   (txt "f32.add", .f32Add), (txt "f32.sub", .f32Sub), (txt "f32.mul", .f32Mul), (txt "f32.div", .f32Div),
   (txt "f32.sqrt", .f32Sqrt), (txt "f32.min", .f32Min), (txt "f32.max", .f32Max), (txt "f32.ceil", .f32Ceil),
   (txt "f32.floor", .f32Floor), (txt "f32.trunc", .f32Trunc), (txt "f32.nearest", .f32Nearest),
   (txt "i32.add", .i32Add), (txt "i32.sub", .i32Sub), (txt "i32.mul", .i32Mul), (txt "i32.div_s", .i32DivS),
   (txt "i32.div_u", .i32DivU), (txt "i32.eqz", .i32Eqz)]

/-- The words of instructions with an index.
-- models wat/parse/parser.go:367-380, 383-386, 392-411 -/
def indexedWords : List (List Byte × Indexed) :=
  [(txt "br", .br), (txt "br_if", .brIf), (txt "br_table", .brTable), (txt "call", .call),
   (txt "local.get", .localGet), (txt "local.set", .localSet), (txt "local.tee", .localTee),
   (txt "global.get", .globalGet), (txt "global.set", .globalSet)]

/-- The words that are accepted and leave the instruction nil.
-- models wat/parse/parser.go:486-500, 503-512 -/
def nilWords : List (List Byte) :=
  [txt "i32.rem_s", txt "i32.rem_u", txt "i32.and", txt "i32.or", txt "i32.xor", txt "i32.shl", txt "i32.shr_s",
   txt "i32.shr_u", txt "i32.rotl", txt "i32.rotr", txt "i32.clz", txt "i32.ctz", txt "i32.popcnt",
   txt "i32.extend8_s", txt "i32.extend16_s", txt "i32.eq", txt "i32.ne", txt "i32.lt_s", txt "i32.lt_u",
   txt "i32.le_s", txt "i32.le_u", txt "i32.gt_s", txt "i32.gt_u", txt "i32.ge_s", txt "i32.ge_u"]

/-- What `parseIf` finds in a pair of parentheses. -/
inductive IfItem where
  | result (r : Result)
  | thens (is : List Inst)
  | elses (is : List Inst)
  | inst (i : Inst)

/-- The switch of `parseIf`, with `parseThen` and `parseElse`.
-- models wat/parse/parser.go:637-650, 665-679 -/
def parseIfItem (inst : SM S Inst) (n : Nat) : SM S IfItem := do
  let tok ← o.peek
  if tok.capture = txt "result" then do
    let r ← parseResult o
    pure (.result r)
  else if tok.capture = txt "then" then do
    expectWord o (txt "then")
    let is ← parens o inst n
    pure (.thens is)
  else if tok.capture = txt "else" then do
    expectWord o (txt "else")
    let is ← parens o inst n
    pure (.elses is)
  else do
    let i ← inst
    pure (.inst i)

/-- The items of an `If`; the last `then` and the last `else` win.
-- models wat/parse/parser.go:632-635, 640-649, 654-662 -/
def ifOfItems (name : Option (List Byte)) (items : List IfItem) : Inst :=
  .ifThen name
    (items.filterMap fun | .result r => some r | _ => none)
    (items.filterMap fun | .inst i => some i | _ => none)
    ((items.filterMap fun | .thens is => some is | _ => none).getLast?.getD [])
    (items.filterMap fun | .elses is => some is | _ => none).getLast?

/-- `parseBlock` and `parseLoop`.
-- models wat/parse/parser.go:582-620 -/
def parseBlock (mk : Option (List Byte) → List Result → List Inst → Inst) (inst : SM S Inst) (n : Nat) : SM S Inst := do
  let name ← parseOptionalId o
  let rs ← parseBlockType o n
  let is ← parens o inst n
  pure (mk name rs is)

/-- `parseIf`.
-- models wat/parse/parser.go:622-663 -/
def parseIf (inst : SM S Inst) (n : Nat) : SM S Inst := do
  let name ← parseOptionalId o
  let items ← parens o (parseIfItem o inst n) n
  pure (ifOfItems name items)

/-- The switch of `parseInstruction`; the words of its cases all differ.
-- models wat/parse/parser.go:366-524, 681-688 -/
def parseHead (inst : SM S Inst) (n : Nat) (w : List Byte) : SM S Inst :=
  match plainWords.lookup w with
  | some p => pure (.plain p)
  | none =>
    match indexedWords.lookup w with
    | some k => do
      let i ← parseIndex o
      pure (.indexed k i)
    | none =>
      if nilWords.contains w then pure .nil
      else if w = txt "i32.const" then do
        let v ← parseInt32 o
        pure (.i32Const v)
      else if w = txt "i64.const" then do
        let v ← parseInt64 o
        pure (.i64Const v)
      else if w = txt "f32.const" then do
        let v ← constFloat32 o lib
        pure (.f32Const v)
      else if w = txt "f64.const" then do
        let v ← constFloat64 o lib
        pure (.f64Const v)
      else if w = txt "block" then parseBlock o .block inst n
      else if w = txt "loop" then parseBlock o .loop inst n
      else if w = txt "if" then parseIf o inst n
      else if w = txt "call_indirect" then do
        let id ← parseTypeUse o
        pure (.callIndirect id)
      else SM.fail

/-- The folded operands after an instruction.
-- models wat/parse/parser.go:525-537 -/
def parseFolded (inst : SM S Inst) (n : Nat) (i : Inst) : SM S Inst := do
  let tok ← o.peek
  if tok.type ≠ .openParen then pure i
  else do
    let ps ← parens o inst n
    pure (.folded i ps)

/-- `parseInstruction`.
-- models wat/parse/parser.go:359-538 -/
def parseInstruction : Nat → SM S Inst
  | 0 => spent
  | n + 1 => do
    let tok ← o.next
    if tok.type ≠ .reserved then SM.fail
    else do
      let i ← parseHead o lib (parseInstruction n) n tok.capture
      parseFolded o (parseInstruction n) n i

/-! ## Modules -/

/-- The type of a global and whether it can be changed.
-- models wat/parse/parser.go:285-301 -/
def parseGlobalType : SM S (Bool × ValType) := do
  let b ← eat o .openParen
  if b then do
    expectWord o (txt "mut")
    let t ← parseValType o
    expect o .closeParen
    pure (true, t)
  else do
    let t ← parseValType o
    pure (false, t)

/-- `parseGlobal` with `parseInstructions`.
-- models wat/parse/parser.go:272-283, 347-357 -/
def parseGlobal (n : Nat) : SM S Global := do
  expectWord o (txt "global")
  let id ← parseOptionalId o
  let ty ← parseGlobalType o
  let is ← parens o (parseInstruction o lib n) n
  pure ⟨id, ty.1, ty.2, is⟩

/-- What `parseFunc` finds in a pair of parentheses. -/
inductive FuncItem where
  | local_ (t : ValType)
  | param (p : Parameter)
  | result (r : Result)
  | export_ (name : List Byte)
  | import_
  | inst (i : Inst)

/-- The switch of `parseFunc`.
-- models wat/parse/parser.go:97-116 -/
def parseFuncItem (n : Nat) : SM S FuncItem := do
  let tok ← o.peek
  if tok.capture = txt "local" then do
    let t ← parseLocal o
    pure (.local_ t)
  else if tok.capture = txt "param" then do
    let p ← parseParameter o n
    pure (.param p)
  else if tok.capture = txt "result" then do
    let r ← parseResult o
    pure (.result r)
  else if tok.capture = txt "export" then do
    let e ← parseExport o
    pure (.export_ e)
  else if tok.capture = txt "import" then do
    parseImport o
    pure .import_
  else do
    let i ← parseInstruction o lib n
    pure (.inst i)

/-- The items of a function appended to its lists.
-- models wat/parse/parser.go:101, 104, 107, 110, 112, 115, 125 -/
def Function.ofItems (id : Option (List Byte)) (items : List FuncItem) (rest : List Inst) : Function where
  id := id
  locals := items.filterMap fun | .local_ t => some t | _ => none
  exports := items.filterMap fun | .export_ e => some e | _ => none
  parameters := items.filterMap fun | .param p => some p | _ => none
  results := items.filterMap fun | .result r => some r | _ => none
  instructions := (items.filterMap fun | .inst i => some i | _ => none) ++ rest

/-- `parseFunc`.
-- models wat/parse/parser.go:83-128 -/
def parseFunc (n : Nat) : SM S Function := do
  expectWord o (txt "func")
  let id ← parseOptionalId o
  let items ← parens o (parseFuncItem o lib n) n
  let rest ← while_ o (fun tok => tok.type != .closeParen) (parseInstruction o lib n) n
  pure (Function.ofItems id items rest)

/-- What `parseModule` finds in a pair of parentheses. -/
inductive Section where
  | func (f : Function)
  | type (t : TypeDef)
  | table (t : Table)
  | global (g : Global)
  | memory (m : Memory)

/-- The switch of `parseModule`.
-- models wat/parse/parser.go:52-71 -/
def parseSection (n : Nat) : SM S Section := do
  let tok ← o.peek
  if tok.capture = txt "func" then do
    let f ← parseFunc o lib n
    pure (.func f)
  else if tok.capture = txt "type" then do
    let t ← parseType o n
    pure (.type t)
  else if tok.capture = txt "table" then do
    let t ← parseTable o n
    pure (.table t)
  else if tok.capture = txt "global" then do
    let g ← parseGlobal o lib n
    pure (.global g)
  else if tok.capture = txt "memory" then do
    let m ← parseMemory o
    pure (.memory m)
  else SM.fail

/-- The sections of a module appended to its lists.
-- models wat/parse/parser.go:50, 56, 59, 62, 65, 68 -/
def Module.ofSections (items : List Section) : Module where
  functions := items.filterMap fun | .func f => some f | _ => none
  memory := items.filterMap fun | .memory m => some m | _ => none
  types := items.filterMap fun | .type t => some t | _ => none
  tables := items.filterMap fun | .table t => some t | _ => none
  globals := items.filterMap fun | .global g => some g | _ => none

/-- `parseModule`.
-- models wat/parse/parser.go:46-75 -/
def parseModule (n : Nat) : SM S Module := do
  expect o .module
  let items ← parens o (parseSection o lib n) n
  pure (Module.ofSections items)

/-- `parseComponent`.
-- models wat/parse/parser.go:77-81 -/
def parseComponent : SM S Unit := expect o .component

/-- The switch of `parse`.
-- models wat/parse/parser.go:30-41 -/
def parseRoot (n : Nat) : SM S Directive := do
  let tok ← o.peek
  if tok.type = .module then do
    let m ← parseModule o lib n
    pure (.module m)
  else if tok.type = .component then do
    parseComponent o
    pure .component
  else SM.fail

/-- `parse` and `Parse`. The text after the closing parenthesis is not read.
-- models wat/parse/parser.go:19-21, 27-44 -/
def parse (n : Nat) : SM S Directive := do
  expect o .openParen
  let root ← parseRoot o lib n
  expect o .closeParen
  pure root

end

/-- `Parse(lex.New(text))` with a bound on loops and recursion.
-- models wat/parse/parser.go:19-21, wat/lex/lexer.go:32-54 -/
def parseText (lib : Lib) (n : Nat) (text : List Byte) : Res Directive := (parse lexOps lib n (Lexer.new text)).1

end Verif.Wat
